import Verif.Proofs.FilterSlice
import Verif.Proofs.SameDoc
import Verif.Proofs.Mapping
/-!
Reading a configuration from the tree of a text and from its `Value`.
-/
namespace Verif.Model
open Verif.Spec

/-! ### Members that are not fields -/

theorem field_only {names : List Str} {name : Str} (h : name ∈ names) (kvs : List (Str × Json)) : De.field (onlyFields names kvs) name = De.field kvs name := by
  have : (onlyFields names kvs).filter (fun p => p.1 == name) = kvs.filter (fun p => p.1 == name) := by
    rw [onlyFields, List.filter_filter]
    refine List.filter_congr fun p _ => ?_
    by_cases hp : p.1 = name
    · simp [hp, h]
    · simp [hp]
  unfold De.field
  rw [this]

theorem mapM_congr_opt {α β : Type} {f g : α → Option β} : ∀ {xs : List α}, (∀ x ∈ xs, f x = g x) → xs.mapM f = xs.mapM g
  | [], _ => rfl
  | x :: xs, h => by
    rw [List.mapM_cons, List.mapM_cons, h x (by simp), mapM_congr_opt fun y hy => h y (by simp [hy])]

theorem fields_only (names : List Str) (j : Json) : De.fields names (onlyFieldsOf names j) = De.fields names j := by
  cases j with
  | obj kvs => exact mapM_congr_opt fun name h => field_only h kvs
  | _ => rfl

theorem readCharFilter_only (kind : Str) (j : Json) : readCharFilter kind (onlyFieldsOf (charFilterFields kind) j) = readCharFilter kind j := by
  unfold readCharFilter charFilterFields De.iterationMark De.regex De.struct1
  split
  · rw [fields_only]
  split
  · rw [fields_only]
  split
  · rw [fields_only]
  split
  · rw [fields_only]
  · rfl

theorem katakanaStem_only (j : Json) : De.katakanaStem (onlyFieldsOf ["min".toList] j) = De.katakanaStem j := by
  cases j with
  | obj kvs => simp only [onlyFieldsOf, De.katakanaStem, field_only (List.mem_singleton_self _)]
  | _ => rfl

theorem struct1_only {α : Type} (name : Str) (d : De α) (j : Json) : De.struct1 name d (onlyFieldsOf [name] j) = De.struct1 name d j := by
  unfold De.struct1
  rw [fields_only]

theorem readTokenFilter_only {kind : Str} {names : List Str} (h : tokenFilterFields kind = some names) (j : Json) : readTokenFilter kind (onlyFieldsOf names j) = readTokenFilter kind j := by
  unfold tokenFilterFields at h
  split at h
  · cases h
  rename_i hv
  split at h
  · rename_i e; subst e; cases h
    show De.compoundWord _ = De.compoundWord _
    unfold De.compoundWord; rw [fields_only]
  rename_i h2
  split at h
  · rename_i e; subst e; cases h
    exact katakanaStem_only j
  rename_i h3
  split at h
  · rename_i e; subst e; cases h
    show De.length _ = De.length _
    unfold De.length; rw [fields_only]
  rename_i h4
  split at h
  · rename_i e; subst e; cases h
    show Option.map _ (De.struct1 _ _ _) = _
    rw [struct1_only]; rfl
  rename_i h5
  split at h
  · rename_i e; cases h
    rcases e with rfl | rfl
    · show Option.map _ (De.struct1 _ _ _) = _
      rw [struct1_only]; rfl
    · show Option.map _ (De.struct1 _ _ _) = _
      rw [struct1_only]; rfl
  rename_i h6
  split at h
  · rename_i e; cases h
    rcases e with rfl | rfl
    · show Option.map _ (De.struct1 _ _ _) = _
      rw [struct1_only]; rfl
    · show Option.map _ (De.struct1 _ _ _) = _
      rw [struct1_only]; rfl
  rename_i h7
  cases h
  simp only [not_or] at hv h6 h7
  unfold readTokenFilter
  simp only [struct1_only, if_neg h2, if_neg h3, if_neg h4, if_neg h5, if_neg hv.1, if_neg hv.2.1, if_neg hv.2.2, if_neg h6.1, if_neg h6.2, if_neg h7.1, if_neg h7.2]

/-! ### The tree and its `Value` -/

/-- Two readings: the first fails, in which case the second fails as well if `P`; or both succeed with related results. -/
def SameRead {α β : Type} (R : α → β → Prop) (P : Prop) (x : Option α) (y : Option β) : Prop := (x = none ∧ (P → y = none)) ∨ ∃ a b, x = some a ∧ y = some b ∧ R a b

theorem SameRead.bind {α β γ δ : Type} {R : α → β → Prop} {S : γ → δ → Prop} {P : Prop} {x : Option α} {y : Option β} {f : α → Option γ} {g : β → Option δ} (h : SameRead R P x y)
    (hf : ∀ a b, R a b → SameRead S P (f a) (g b)) : SameRead S P (x.bind f) (y.bind g) := by
  rcases h with ⟨rfl, hy⟩ | ⟨a, b, rfl, rfl, hab⟩
  · exact .inl ⟨rfl, fun hp => by rw [hy hp]; rfl⟩
  · exact hf a b hab

theorem SameRead.map {α β γ δ : Type} {R : α → β → Prop} {S : γ → δ → Prop} {P : Prop} {x : Option α} {y : Option β} {f : α → γ} {g : β → δ} (h : SameRead R P x y)
    (hf : ∀ a b, R a b → S (f a) (g b)) : SameRead S P (x.map f) (y.map g) := by
  rcases h with ⟨rfl, hy⟩ | ⟨a, b, rfl, rfl, hab⟩
  · exact .inl ⟨rfl, fun hp => by rw [hy hp]; rfl⟩
  · exact .inr ⟨_, _, rfl, rfl, hf a b hab⟩

theorem SameRead.weaken {α β : Type} {R : α → β → Prop} {P Q : Prop} {x : Option α} {y : Option β} (h : SameRead R P x y) (hq : Q → P) : SameRead R Q x y := by
  rcases h with ⟨rfl, hy⟩ | h
  · exact .inl ⟨rfl, fun hp => hy (hq hp)⟩
  · exact .inr h

theorem SameRead.eq {α : Type} {P : Prop} {x : Option α} : SameRead Eq P x x := by
  cases x with
  | none => exact .inl ⟨rfl, fun _ => rfl⟩
  | some a => exact .inr ⟨a, a, rfl, rfl, rfl⟩

theorem SameRead.some {α β : Type} {R : α → β → Prop} {P : Prop} {a : α} {b : β} (h : R a b) : SameRead R P (some a) (some b) := .inr ⟨a, b, rfl, rfl, h⟩

/-- A type's reader agrees on every document and its `Value`. -/
def Agrees {α : Type} (R : α → α → Prop) (d : De α) : Prop := ∀ j, SameRead R (Json.Unrepeated j) (d j) (d j.value)

/-- A field's value in the tree and in the `Value`. -/
def FieldValue (P : Prop) (o o' : Option Json) : Prop := o' = o.map Json.value ∧ (P → ∀ j, o = some j → Json.Unrepeated j)

theorem unrepeated_mem {kvs : List (Str × Json)} (h : UnrepeatedPairs kvs) {p : Str × Json} (hp : p ∈ kvs) : Json.Unrepeated p.2 := by
  induction kvs with
  | nil => cases hp
  | cons q kvs ih =>
    obtain ⟨k, x⟩ := q
    simp only [UnrepeatedPairs] at h
    rcases List.mem_cons.mp hp with rfl | hp
    · exact h.1
    · exact ih h.2 hp

theorem unrepeated_elem {xs : List Json} (h : UnrepeatedList xs) {x : Json} (hx : x ∈ xs) : Json.Unrepeated x := by
  induction xs with
  | nil => cases hx
  | cons y xs ih =>
    simp only [UnrepeatedList] at h
    rcases List.mem_cons.mp hx with rfl | hx
    · exact h.1
    · exact ih h.2 hx

theorem filter_nil_iff {kvs : List (Str × Json)} {name : Str} : kvs.filter (fun p => p.1 == name) = [] ↔ name ∉ kvs.map (·.1) := by
  rw [List.filter_eq_nil_iff, List.mem_map]
  constructor
  · rintro h ⟨p, hp, e⟩
    exact h p hp (by simp [e])
  · intro h p hp e
    exact h ⟨p, hp, by simpa using e⟩

theorem field_nodup {kvs : List (Str × Json)} (h : (kvs.map (·.1)).Nodup) (name : Str) : (name ∉ kvs.map (·.1) ∧ De.field kvs name = some none) ∨
    ∃ j, (name, j) ∈ kvs ∧ De.field kvs name = some (some j) := by
  by_cases hn : name ∈ kvs.map (·.1)
  · right
    obtain ⟨p, hp, rfl⟩ := List.mem_map.mp hn
    refine ⟨p.2, hp, ?_⟩
    have : kvs.filter (fun q => q.1 == p.1) = [p] := by
      obtain ⟨pre, post, rfl⟩ := List.append_of_mem hp
      rw [List.map_append, List.map_cons, List.nodup_append, List.nodup_cons] at h
      rw [List.filter_append, List.filter_cons, if_pos (by simp), filter_nil_iff.mpr, filter_nil_iff.mpr h.2.1.1]
      · rfl
      · intro hm
        exact h.2.2 _ hm _ (by simp) rfl
    unfold De.field
    rw [this]
  · left
    refine ⟨hn, ?_⟩
    unfold De.field
    rw [filter_nil_iff.mpr hn]

theorem sortedKeys_nodup {kvs : List (Str × Json)} (h : SortedKeys kvs) : (kvs.map (·.1)).Nodup := List.Pairwise.imp (fun h => h.2) h

theorem lastMember_mem {kvs : List (Str × Json)} {k : Str} {v : Json} (h : LastMember kvs k v) : (k, v) ∈ kvs := by
  obtain ⟨pre, post, rfl, -⟩ := h
  simp

/-- What a field is in the `Value`. -/
theorem field_value {kvs : List (Str × Json)} (name : Str) : (name ∉ kvs.map (·.1) ∧ De.field (Json.valuePairs kvs) name = some none) ∨
    ∃ j, LastMember kvs name j ∧ De.field (Json.valuePairs kvs) name = some (some j.value) := by
  rcases field_nodup (sortedKeys_nodup (valuePairs_sorted kvs)) name with ⟨h1, h2⟩ | ⟨w, h1, h2⟩
  · exact .inl ⟨by rwa [valuePairs_keys] at h1, h2⟩
  · obtain ⟨v, hv, rfl⟩ := mem_valuePairs.mp h1
    exact .inr ⟨v, hv, h2⟩

theorem field_agree (kvs : List (Str × Json)) (name : Str) : SameRead (FieldValue (Json.Unrepeated (.obj kvs))) (Json.Unrepeated (.obj kvs)) (De.field kvs name) (De.field (Json.valuePairs kvs) name) := by
  cases hf : De.field kvs name with
  | none =>
    refine .inl ⟨rfl, fun hp => ?_⟩
    rcases field_nodup hp.1 name with ⟨_, h⟩ | ⟨j, _, h⟩ <;> rw [hf] at h <;> cases h
  | some o =>
    unfold De.field at hf
    split at hf
    · rename_i hnil
      cases hf
      rcases field_value (kvs := kvs) name with ⟨_, h⟩ | ⟨j, hj, h⟩
      · exact .inr ⟨_, _, rfl, h, rfl, by simp⟩
      · exact absurd (List.mem_map_of_mem (f := (·.1)) (lastMember_mem hj)) (filter_nil_iff.mp hnil)
    · rename_i p hone
      cases hf
      have hp : p ∈ kvs ∧ p.1 = name := by
        have : p ∈ kvs.filter (fun p => p.1 == name) := by rw [hone]; simp
        simpa using List.mem_filter.mp this
      rcases field_value (kvs := kvs) name with ⟨hn, h⟩ | ⟨j, hj, h⟩
      · exact absurd (List.mem_map.mpr ⟨p, hp.1, hp.2⟩) hn
      · have : (name, j) ∈ kvs.filter (fun p => p.1 == name) := List.mem_filter.mpr ⟨lastMember_mem hj, by simp⟩
        rw [hone, List.mem_singleton] at this
        subst this
        exact .inr ⟨_, _, rfl, h, rfl, fun hu j' hj' => by cases hj'; exact unrepeated_mem hu.2 hp.1⟩
    · cases hf

theorem valueList_eq_map (xs : List Json) : Json.valueList xs = xs.map Json.value := by
  induction xs with
  | nil => rfl
  | cons x xs ih => simp [Json.valueList, ih]

theorem mapM_agree {α : Type} {β : Type} {R : β → β → Prop} {P : Prop} {f g : α → Option β} : ∀ {xs : List α}, (∀ x ∈ xs, SameRead R P (f x) (g x)) →
    SameRead (List.Forall₂ R) P (xs.mapM f) (xs.mapM g)
  | [], _ => SameRead.some .nil
  | x :: xs, h => by
    rw [List.mapM_cons, List.mapM_cons]
    refine SameRead.bind (h x (by simp)) fun a b hab => ?_
    refine SameRead.bind (mapM_agree fun y hy => h y (by simp [hy])) fun as bs habs => ?_
    exact SameRead.some (.cons hab habs)

theorem fields_agree (names : List Str) (j : Json) : SameRead (List.Forall₂ (FieldValue (Json.Unrepeated j))) (Json.Unrepeated j) (De.fields names j) (De.fields names j.value) := by
  cases j with
  | obj kvs => exact mapM_agree fun name _ => field_agree kvs name
  | arr xs =>
    show SameRead _ _ (if _ then _ else _) (if (Json.valueList xs).length = _ then some ((Json.valueList xs).map some) else none)
    rw [valueList_eq_map, List.length_map]
    split
    · refine SameRead.some ?_
      rw [List.map_map]
      have : ∀ ys : List Json, (∀ y ∈ ys, y ∈ xs) → List.Forall₂ (FieldValue (Json.Unrepeated (.arr xs))) (ys.map some) (ys.map (some ∘ Json.value)) := by
        intro ys
        induction ys with
        | nil => intro _; exact .nil
        | cons y ys ih =>
          intro h
          exact .cons ⟨rfl, fun hp j hj => by cases hj; exact unrepeated_elem hp (h y (by simp))⟩ (ih fun z hz => h z (by simp [hz]))
      exact this xs fun _ h => h
    · exact .inl ⟨rfl, fun _ => rfl⟩
  | _ => exact .inl ⟨rfl, fun _ => rfl⟩

/-! ### Types of fields -/

theorem string_agrees : Agrees Eq De.string := fun j => by
  cases j <;> exact SameRead.eq

theorem bool_agrees : Agrees Eq De.bool := fun j => by
  cases j <;> exact SameRead.eq

theorem usize_agrees : Agrees Eq De.usize := fun j => by
  cases j <;> exact SameRead.eq

theorem nonZero_agrees : Agrees Eq De.nonZeroUsize := fun j => by
  cases j <;> exact SameRead.eq

theorem strings_agrees : Agrees Eq (De.set De.string) := fun j => by
  cases j with
  | arr xs =>
    show SameRead _ _ (xs.mapM De.string) ((Json.valueList xs).mapM De.string)
    have : (Json.valueList xs).mapM De.string = xs.mapM De.string := by
      induction xs with
      | nil => rfl
      | cons x xs ih =>
        rw [Json.valueList, List.mapM_cons, List.mapM_cons, ih]
        cases x <;> rfl
    rw [this]
    exact SameRead.eq
  | _ => exact SameRead.eq

theorem unitVariant_agrees {α : Type} (named : Str → Option α) : Agrees Eq (De.unitVariant named) := fun j => by
  cases j with
  | obj kvs =>
    by_cases h1 : ∃ k v, kvs = [(k, v)]
    · obtain ⟨k, v, rfl⟩ := h1
      have : Json.value (.obj [(k, v)]) = .obj [(k, v.value)] := by simp [Json.value, Json.valuePairs, Json.mapInsert]
      rw [this]
      cases v <;> exact SameRead.eq
    · have hn : De.unitVariant named (.obj kvs) = none := by
        unfold De.unitVariant
        split
        · rename_i h; cases h
        · rename_i h; cases h; exact absurd ⟨_, _, rfl⟩ h1
        · rfl
      refine .inl ⟨hn, fun hu => ?_⟩
      show De.unitVariant named (.obj (Json.valuePairs kvs)) = none
      have hl : (Json.valuePairs kvs).length = kvs.length := by
        have h2 : ((Json.valuePairs kvs).map (·.1)).Perm (kvs.map (·.1)) :=
          (List.perm_ext_iff_of_nodup (sortedKeys_nodup (valuePairs_sorted kvs)) hu.1).mpr fun x => valuePairs_keys kvs x
        simpa using h2.length_eq
      unfold De.unitVariant
      split
      · rename_i h; cases h
      · rename_i k h
        simp only [Json.obj.injEq] at h
        rw [h] at hl
        obtain ⟨p, hp⟩ := List.length_eq_one_iff.mp hl.symm
        exact absurd ⟨p.1, p.2, hp⟩ h1
      · rfl
  | _ => exact SameRead.eq

theorem nodup_of_map {α β : Type} {f : α → β} {xs : List α} (h : (xs.map f).Nodup) : xs.Nodup := by
  rw [List.Nodup, List.pairwise_map] at h
  exact h.imp fun h e => h (by rw [e])

/-- The same pairs, of distinct keys. -/
def SameMap (m m' : StrMap) : Prop := m.Perm m' ∧ (m.map (·.1)).Nodup

theorem asStr_value (j : Json) : j.value.asStr = j.asStr := by cases j <;> rfl

theorem map_agrees : Agrees SameMap (De.map De.string) := fun j => by
  have hmap : ∀ {j : Json} {m : StrMap}, De.map De.string j = some m → (m.map (·.1)).Nodup ∧ ∃ kvs, j = .obj kvs ∧ (∀ p ∈ kvs, ∃ s, p.2 = .str s) ∧ ∀ k s, (k, s) ∈ m ↔ LastMember kvs k (.str s) := by
    intro j m h
    cases j with
    | obj kvs =>
      have : ∀ kvs m, De.map De.string (.obj kvs) = some m → (m.map (·.1)).Nodup ∧ (∀ p ∈ kvs, ∃ s, p.2 = .str s) ∧ (∀ x, x ∈ m.map (·.1) ↔ x ∈ kvs.map (·.1)) ∧ ∀ k s, (k, s) ∈ m ↔ LastMember kvs k (.str s) := by
        intro kvs
        induction kvs with
        | nil => intro m h; simp [De.map] at h; subst h; simp [lastMember_nil]
        | cons p kvs ih =>
          intro m h
          obtain ⟨k0, v0⟩ := p
          simp only [De.map, List.mapM_cons, Option.map_eq_some_iff] at h
          obtain ⟨all, h1, rfl⟩ := h
          simp only [Option.pure_def, Option.bind_eq_bind, Option.bind_eq_some_iff, Option.map_eq_some_iff, Option.some.injEq] at h1
          obtain ⟨_, ⟨s0, hs0, rfl⟩, rest, hrest, rfl⟩ := h1
          have hv0 : v0 = .str s0 := by
            cases v0 <;> simp [De.string, Json.asStr] at hs0
            rw [hs0]
          subst hv0
          obtain ⟨i1, i2, i3, i4⟩ := ih (rest.foldr (fun (p : Str × Str) (m : List (Str × Str)) => if p.1 ∈ m.map (·.1) then m else p :: m) []) (by simp only [De.map, hrest, Option.map_some])
          rw [List.foldr_cons]
          dsimp only
          generalize rest.foldr (fun (p : Str × Str) (m : List (Str × Str)) => if p.1 ∈ m.map (·.1) then m else p :: m) [] = m at *
          refine ⟨?_, ?_, ?_, ?_⟩
          · split
            · exact i1
            · rename_i hk; rw [List.map_cons, List.nodup_cons]; exact ⟨hk, i1⟩
          · intro p hp
            rcases List.mem_cons.mp hp with rfl | hp
            · exact ⟨s0, rfl⟩
            · exact i2 p hp
          · intro x
            split
            · rename_i hk
              rw [i3, List.map_cons, List.mem_cons]
              constructor
              · exact .inr
              · rintro (rfl | h)
                · exact (i3 _).mp hk
                · exact h
            · rw [List.map_cons, List.map_cons, List.mem_cons, List.mem_cons, i3]
          · intro k s
            rw [lastMember_cons]
            split
            · rename_i hk
              rw [i4]
              constructor
              · exact .inl
              · rintro (h | ⟨rfl, _, h⟩)
                · exact h
                · exact absurd ((i3 _).mp hk) h
            · rename_i hk
              rw [List.mem_cons, i4, Prod.mk.injEq]
              constructor
              · rintro (⟨rfl, rfl⟩ | h)
                · exact .inr ⟨rfl, rfl, fun h => hk ((i3 _).mpr h)⟩
                · exact .inl h
              · rintro (h | ⟨rfl, h, _⟩)
                · exact .inr h
                · cases h; exact .inl ⟨rfl, rfl⟩
      obtain ⟨h1, h2, _, h4⟩ := this kvs m h
      exact ⟨h1, kvs, rfl, h2, h4⟩
    | _ => cases h
  have htot : ∀ kvs : List (Str × Json), (∀ p ∈ kvs, ∃ s, p.2 = .str s) → ∃ m, De.map De.string (.obj kvs) = some m := by
    intro kvs h
    have : ∃ all, kvs.mapM (fun p => (De.string p.2).map (p.1, ·)) = some all := by
      induction kvs with
      | nil => exact ⟨[], rfl⟩
      | cons p kvs ih =>
        obtain ⟨all, ha⟩ := ih fun q hq => h q (by simp [hq])
        obtain ⟨s, hs⟩ := h p (by simp)
        exact ⟨(p.1, s) :: all, by rw [List.mapM_cons, ha, hs]; rfl⟩
    obtain ⟨all, ha⟩ := this
    exact ⟨_, by simp only [De.map, ha, Option.map_some]; rfl⟩
  cases hx : De.map De.string j with
  | none =>
    refine .inl ⟨rfl, fun hu => ?_⟩
    cases j with
    | obj kvs =>
      rw [Option.eq_none_iff_forall_ne_some]
      intro m hm
      obtain ⟨_, kvs', he, h2, _⟩ := hmap hm
      simp only [Json.value, Json.obj.injEq] at he
      subst he
      obtain ⟨m', hm'⟩ := htot kvs fun p hp => by
        have hl : LastMember kvs p.1 p.2 := by
          obtain ⟨pre, post, rfl⟩ := List.append_of_mem hp
          refine ⟨pre, post, rfl, fun hm => ?_⟩
          have := hu.1
          rw [List.map_append, List.map_cons, List.nodup_append, List.nodup_cons] at this
          exact this.2.1.1 hm
        obtain ⟨s, hs⟩ := h2 (p.1, p.2.value) (mem_valuePairs.mpr ⟨_, hl, rfl⟩)
        refine ⟨s, ?_⟩
        have := asStr_value p.2
        dsimp only at hs
        rw [hs] at this
        cases hp2 : p.2 <;> rw [hp2] at this <;> simp [Json.asStr] at this
        rw [this]
      rw [hm'] at hx
      cases hx
    | _ => rfl
  | some m =>
    obtain ⟨h1, kvs, rfl, h2, h3⟩ := hmap hx
    obtain ⟨m', hm'⟩ := htot (Json.valuePairs kvs) fun p hp => by
      obtain ⟨v, hv, e⟩ := mem_valuePairs.mp (show (p.1, p.2) ∈ _ from hp)
      obtain ⟨s, hs⟩ := h2 _ (lastMember_mem hv)
      dsimp only at hs
      exact ⟨s, by rw [e, hs]; rfl⟩
    refine .inr ⟨m, m', rfl, hm', ?_, h1⟩
    obtain ⟨h1', kvs', he, h2', h3'⟩ := hmap (show De.map De.string (.obj (Json.valuePairs kvs)) = some m' from hm')
    cases he
    refine (List.perm_ext_iff_of_nodup (nodup_of_map h1) (nodup_of_map h1')).mpr fun p => ?_
    obtain ⟨k, s⟩ := p
    rw [h3, h3']
    constructor
    · intro h
      have hm : (k, Json.str s) ∈ Json.valuePairs kvs := mem_valuePairs.mpr ⟨_, h, rfl⟩
      obtain ⟨pre, post, e⟩ := List.append_of_mem hm
      refine ⟨pre, post, e, fun hm => ?_⟩
      have := sortedKeys_nodup (valuePairs_sorted kvs)
      rw [e, List.map_append, List.map_cons, List.nodup_append, List.nodup_cons] at this
      exact this.2.1.1 hm
    · intro h
      obtain ⟨v, hv, e⟩ := mem_valuePairs.mp (lastMember_mem h)
      obtain ⟨s', hs'⟩ := h2 _ (lastMember_mem hv)
      dsimp only at hs'
      subst hs'
      cases e
      exact hv

/-! ### Structs -/

theorem required_agree {α : Type} {R : α → α → Prop} {d : De α} (h : Agrees R d) {P : Prop} {o o' : Option Json} (ho : FieldValue P o o') : SameRead R P (De.required d o) (De.required d o') := by
  obtain ⟨rfl, hu⟩ := ho
  cases o with
  | none => exact .inl ⟨rfl, fun _ => rfl⟩
  | some j => exact (h j).weaken fun hp => hu hp j rfl

theorem optional_agree {α : Type} {d : De α} (h : Agrees Eq d) {P : Prop} {o o' : Option Json} (ho : FieldValue P o o') : SameRead Eq P (De.optional d o) (De.optional d o') := by
  obtain ⟨rfl, hu⟩ := ho
  cases o with
  | none => exact SameRead.eq
  | some j =>
    have hj := (h j).weaken fun hp => hu hp j rfl
    have hmap : SameRead Eq P ((d j).map some) ((d j.value).map some) := hj.map fun a b e => by rw [e]
    cases j <;> first | exact SameRead.eq | exact hmap

theorem struct1_agrees {α : Type} {R : α → α → Prop} {d : De α} (name : Str) (h : Agrees R d) : Agrees R (De.struct1 name d) := fun j => by
  refine SameRead.bind (fields_agree [name] j) fun fs fs' hfs => ?_
  cases hfs with
  | nil => exact .inl ⟨rfl, fun _ => rfl⟩
  | cons h1 hfs =>
    cases hfs with
    | nil => exact required_agree h h1
    | cons _ _ => exact .inl ⟨rfl, fun _ => rfl⟩

theorem iterationMark_agrees : Agrees Eq De.iterationMark := fun j => by
  refine SameRead.bind (fields_agree _ j) fun fs fs' hfs => ?_
  rcases hfs with _ | ⟨h1, _ | ⟨h2, _ | ⟨h3, h4⟩⟩⟩
  · exact .inl ⟨rfl, fun _ => rfl⟩
  · exact .inl ⟨rfl, fun _ => rfl⟩
  · refine SameRead.bind (required_agree bool_agrees h1) fun a b e => ?_
    subst e
    refine SameRead.bind (required_agree bool_agrees h2) fun a b e => ?_
    subst e
    exact SameRead.eq
  · exact .inl ⟨rfl, fun _ => rfl⟩

theorem regex_agrees : Agrees Eq De.regex := fun j => by
  refine SameRead.bind (fields_agree _ j) fun fs fs' hfs => ?_
  rcases hfs with _ | ⟨h1, _ | ⟨h2, _ | ⟨h3, h4⟩⟩⟩
  · exact .inl ⟨rfl, fun _ => rfl⟩
  · exact .inl ⟨rfl, fun _ => rfl⟩
  · refine SameRead.bind (required_agree string_agrees h1) fun a b e => ?_
    subst e
    refine SameRead.bind (required_agree string_agrees h2) fun a b e => ?_
    subst e
    exact SameRead.eq
  · exact .inl ⟨rfl, fun _ => rfl⟩

theorem length_agrees : Agrees Eq De.length := fun j => by
  refine SameRead.bind (fields_agree _ j) fun fs fs' hfs => ?_
  rcases hfs with _ | ⟨h1, _ | ⟨h2, _ | ⟨h3, h4⟩⟩⟩
  · exact .inl ⟨rfl, fun _ => rfl⟩
  · exact .inl ⟨rfl, fun _ => rfl⟩
  · refine SameRead.bind (optional_agree usize_agrees h1) fun a b e => ?_
    subst e
    refine SameRead.bind (optional_agree usize_agrees h2) fun a b e => ?_
    subst e
    exact SameRead.eq
  · exact .inl ⟨rfl, fun _ => rfl⟩

theorem compoundWord_agrees : Agrees Eq De.compoundWord := fun j => by
  refine SameRead.bind (fields_agree _ j) fun fs fs' hfs => ?_
  rcases hfs with _ | ⟨h1, _ | ⟨h2, _ | ⟨h3, _ | ⟨h4, h5⟩⟩⟩⟩
  · exact .inl ⟨rfl, fun _ => rfl⟩
  · exact .inl ⟨rfl, fun _ => rfl⟩
  · exact .inl ⟨rfl, fun _ => rfl⟩
  · refine SameRead.bind (required_agree (unitVariant_agrees _) h1) fun a b e => ?_
    subst e
    refine SameRead.bind (required_agree strings_agrees h2) fun a b e => ?_
    subst e
    refine SameRead.bind (optional_agree string_agrees h3) fun a b e => ?_
    subst e
    exact SameRead.eq
  · exact .inl ⟨rfl, fun _ => rfl⟩

theorem katakanaStem_agrees : Agrees Eq De.katakanaStem := fun j => by
  cases j with
  | obj kvs =>
    refine SameRead.bind (field_agree kvs _) fun o o' ho => ?_
    obtain ⟨rfl, hu⟩ := ho
    cases o with
    | none => exact SameRead.eq
    | some j => exact SameRead.map ((nonZero_agrees j).weaken fun hp => hu hp j rfl) fun a b e => by rw [e]
  | arr xs =>
    rcases xs with _ | ⟨x, _ | ⟨y, xs⟩⟩
    · exact SameRead.eq
    · exact SameRead.map ((nonZero_agrees x).weaken fun hp => hp.1) fun a b e => by rw [e]
    · exact .inl ⟨rfl, fun _ => rfl⟩
  | _ => exact .inl ⟨rfl, fun _ => rfl⟩

/-! ### Filters -/

theorem StrMap.get_perm {m m' : StrMap} (h : SameMap m m') (k : Str) : m.get k = m'.get k := by
  refine Option.ext fun v => ?_
  rw [StrMap.get_eq_some h.2, StrMap.get_eq_some ((h.1.map _).nodup_iff.mp h.2), h.1.mem_iff]

theorem sortByKey_perm_eq {a b : List Str} (h : a.Perm b) : sortByKey id a = sortByKey id b := by
  have ha := sortByKey_sorted (α := Str) id a
  have hb := sortByKey_sorted (α := Str) id b
  have hp : (sortByKey id a).Perm (sortByKey id b) := ((sortByKey_perm _ _).trans h).trans (sortByKey_perm _ _).symm
  exact hp.eq_of_pairwise (fun x y _ _ h1 h2 => strLe_antisymm h1 h2) ha hb

theorem keyset_perm {m m' : StrMap} (h : SameMap m m') : Mapping.keyset m = Mapping.keyset m' := by
  unfold Mapping.keyset
  rw [sortByKey_perm_eq (h.1.map _)]

theorem mappingLoop_perm {m m' : StrMap} (h : SameMap m m') (da : DoubleArray) (text : Str) :
    ∀ n i out t, Mapping.loop ⟨m, da⟩ text n i out t = Mapping.loop ⟨m', da⟩ text n i out t := by
  intro n
  induction n with
  | zero => intros; rfl
  | succ n ih =>
    intro i out t
    unfold Mapping.loop
    simp only [ih, StrMap.get_perm h, Mapping.matchLen]

theorem mappingTokenLoop_perm {m m' : StrMap} (h : SameMap m m') (da : DoubleArray) (text : Str) :
    ∀ n i out, Mapping.tokenLoop ⟨m, da⟩ text n i out = Mapping.tokenLoop ⟨m', da⟩ text n i out := by
  intro n
  induction n with
  | zero => intros; rfl
  | succ n ih =>
    intro i out
    unfold Mapping.tokenLoop
    simp only [ih, StrMap.get_perm h, Mapping.matchLen]

/-- Settings that differ at most in the order of the pairs of a mapping. -/
def SameCharSetting (s s' : CharFilterSetting) : Prop := s = s' ∨ ∃ m m', s = .mapping m ∧ s' = .mapping m' ∧ SameMap m m'

def SameTokenSetting (s s' : TokenFilterSetting) : Prop := s = s' ∨ ∃ m m', s = .mapping m ∧ s' = .mapping m' ∧ SameMap m m'

theorem SameCharSetting.new {s s' : CharFilterSetting} (h : SameCharSetting s s') (env : FilterEnv) : s.new env = s'.new env := by
  rcases h with rfl | ⟨m, m', rfl, rfl, h⟩
  · rfl
  · simp only [CharFilterSetting.new, Mapping.new, keyset_perm h]
    split
    · simp only [bind_ok]
      congr 1
      funext text
      simp only [Mapping.filter, Mapping.apply, mappingLoop_perm h]
    · rfl

theorem SameTokenSetting.new {s s' : TokenFilterSetting} (h : SameTokenSetting s s') (env : FilterEnv) : s.new env = s'.new env := by
  rcases h with rfl | ⟨m, m', rfl, rfl, h⟩
  · rfl
  · simp only [TokenFilterSetting.new, Mapping.new, keyset_perm h]
    split
    · simp only [bind_ok]
      congr 1
      simp only [Mapping.tokenFilter, mappingTokenLoop_perm h]
    · rfl

theorem readCharFilter_agrees (kind : Str) : Agrees SameCharSetting (readCharFilter kind) := fun j => by
  unfold readCharFilter
  split
  · exact (iterationMark_agrees j).imp_right fun ⟨a, b, h1, h2, h3⟩ => ⟨a, b, h1, h2, .inl h3⟩
  split
  · exact (struct1_agrees _ map_agrees j).map fun a b h => .inr ⟨a, b, rfl, rfl, h⟩
  split
  · exact (regex_agrees j).imp_right fun ⟨a, b, h1, h2, h3⟩ => ⟨a, b, h1, h2, .inl h3⟩
  split
  · exact (struct1_agrees _ (unitVariant_agrees _) j).map fun a b h => .inl (by rw [h])
  · exact .inl ⟨rfl, fun _ => rfl⟩

theorem ite_agree {α β : Type} {R : α → β → Prop} {P c : Prop} [Decidable c] {a b : Option α} {a' b' : Option β} (h1 : c → SameRead R P a a') (h2 : ¬ c → SameRead R P b b') :
    SameRead R P (if c then a else b) (if c then a' else b') := by
  by_cases hc : c
  · rw [if_pos hc, if_pos hc]; exact h1 hc
  · rw [if_neg hc, if_neg hc]; exact h2 hc

theorem readTokenFilter_agrees {kind : Str} (hk : tokenFilterFields kind ≠ none) : Agrees SameTokenSetting (readTokenFilter kind) := fun j => by
  have hk' : ¬ (kind = "japanese_keep_tags".toList ∨ kind = "japanese_stop_tags".toList ∨ kind = "japanese_number".toList) := by
    intro h
    exact hk (by unfold tokenFilterFields; rw [if_pos h])
  simp only [not_or] at hk'
  have lift : ∀ {x y : Option TokenFilterSetting} {P : Prop}, SameRead Eq P x y → SameRead SameTokenSetting P x y := fun h => h.imp_right fun ⟨a, b, h1, h2, h3⟩ => ⟨a, b, h1, h2, .inl h3⟩
  unfold readTokenFilter
  refine ite_agree (fun _ => lift ((struct1_agrees _ (unitVariant_agrees _) j).map fun a b h => by rw [h])) fun _ => ?_
  refine ite_agree (fun _ => lift (compoundWord_agrees j)) fun _ => ?_
  refine ite_agree (fun _ => lift ((struct1_agrees _ (unitVariant_agrees _) j).map fun a b h => by rw [h])) fun _ => ?_
  refine ite_agree (fun _ => lift (katakanaStem_agrees j)) fun _ => ?_
  refine ite_agree (fun h => absurd h hk'.1) fun _ => ?_
  refine ite_agree (fun h => absurd h hk'.2.2) fun _ => ?_
  refine ite_agree (fun _ => lift ((struct1_agrees _ (unitVariant_agrees _) j).map fun a b h => by rw [h])) fun _ => ?_
  refine ite_agree (fun h => absurd h hk'.2.1) fun _ => ?_
  refine ite_agree (fun _ => lift ((struct1_agrees _ strings_agrees j).map fun a b h => by rw [h])) fun _ => ?_
  refine ite_agree (fun _ => lift ((struct1_agrees _ strings_agrees j).map fun a b h => by rw [h])) fun _ => ?_
  refine ite_agree (fun _ => lift SameRead.eq) fun _ => ?_
  refine ite_agree (fun _ => lift ((struct1_agrees _ strings_agrees j).map fun a b h => by rw [h])) fun _ => ?_
  refine ite_agree (fun _ => lift (length_agrees j)) fun _ => ?_
  refine ite_agree (fun _ => lift SameRead.eq) fun _ => ?_
  refine ite_agree (fun _ => (struct1_agrees _ map_agrees j).map fun a b h => .inr ⟨a, b, rfl, rfl, h⟩) fun _ => ?_
  refine ite_agree (fun _ => lift ((struct1_agrees _ strings_agrees j).map fun a b h => by rw [h])) fun _ => ?_
  refine ite_agree (fun _ => lift SameRead.eq) fun _ => ?_
  exact .inl ⟨rfl, fun _ => rfl⟩

end Verif.Model
