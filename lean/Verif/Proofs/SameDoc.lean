import Verif.Proofs.AnalyzerConfig
import Verif.Proofs.Sort
/-! Documents with the same meaning have the same canonical form. -/
namespace Verif.Model
open Verif.Spec

/-- Keys in strictly increasing order. -/
def SortedKeys (kvs : List (Str × Json)) : Prop := (kvs.map (·.1)).Pairwise fun a b => strLe a b = true ∧ a ≠ b

/-- The member that counts. -/
def LastMember (kvs : List (Str × Json)) (k : Str) (v : Json) : Prop := ∃ pre post, kvs = pre ++ (k, v) :: post ∧ k ∉ post.map (·.1)

theorem lastMember_nil {k : Str} {v : Json} : ¬ LastMember [] k v := by
  rintro ⟨pre, post, h, _⟩
  simp at h

theorem lastMember_cons {k0 k : Str} {v0 v : Json} {rest : List (Str × Json)} :
    LastMember ((k0, v0) :: rest) k v ↔ LastMember rest k v ∨ (k = k0 ∧ v = v0 ∧ k ∉ rest.map (·.1)) := by
  constructor
  · rintro ⟨pre, post, h, hn⟩
    cases pre with
    | nil => cases h; exact .inr ⟨rfl, rfl, hn⟩
    | cons p pre => cases h; exact .inl ⟨pre, post, rfl, hn⟩
  · rintro (⟨pre, post, rfl, hn⟩ | ⟨rfl, rfl, hn⟩)
    · exact ⟨(k0, v0) :: pre, post, rfl, hn⟩
    · exact ⟨[], rest, rfl, hn⟩

theorem lastMember_append {a b : List (Str × Json)} {k : Str} {v : Json} :
    LastMember (a ++ b) k v ↔ LastMember b k v ∨ (LastMember a k v ∧ k ∉ b.map (·.1)) := by
  induction a with
  | nil => simp [lastMember_nil]
  | cons p a ih =>
    obtain ⟨k0, v0⟩ := p
    rw [List.cons_append, lastMember_cons, ih, lastMember_cons, List.map_append, List.mem_append]
    tauto

theorem mapInsert_keys {k : Str} {v : Json} {m : List (Str × Json)} {x : Str} : x ∈ (Json.mapInsert k v m).map (·.1) ↔ x = k ∨ x ∈ m.map (·.1) := by
  induction m with
  | nil => simp [Json.mapInsert]
  | cons p m ih =>
    obtain ⟨k', v'⟩ := p
    unfold Json.mapInsert
    split
    · rename_i h; subst h; simp
    split
    · simp
    · rw [List.map_cons, List.mem_cons, ih, List.map_cons, List.mem_cons]
      dsimp only
      tauto

theorem mapInsert_sorted {k : Str} {v : Json} {m : List (Str × Json)} (h : SortedKeys m) : SortedKeys (Json.mapInsert k v m) := by
  induction m with
  | nil => simp [Json.mapInsert, SortedKeys]
  | cons p m ih =>
    obtain ⟨k', v'⟩ := p
    unfold SortedKeys at h
    rw [List.map_cons, List.pairwise_cons] at h
    unfold Json.mapInsert
    split
    · rename_i e; subst e
      unfold SortedKeys
      rw [List.map_cons, List.pairwise_cons]
      exact h
    rename_i hne
    split
    · rename_i hle
      unfold SortedKeys
      rw [List.map_cons, List.pairwise_cons, List.map_cons, List.pairwise_cons]
      refine ⟨fun x hx => ?_, h⟩
      rcases List.mem_cons.mp hx with rfl | hx
      · exact ⟨hle, hne⟩
      · have := h.1 x hx
        exact ⟨strLe_trans hle this.1, fun e => hne (strLe_antisymm hle (by dsimp only at e; rw [e]; exact this.1))⟩
    · rename_i hle
      unfold SortedKeys
      rw [List.map_cons, List.pairwise_cons]
      refine ⟨fun x hx => ?_, ih h.2⟩
      rcases mapInsert_keys.mp hx with rfl | hx
      · exact ⟨(strLe_total _ _).resolve_left hle, fun e => hne e.symm⟩
      · exact h.1 x hx

theorem mem_mapInsert {k : Str} {v : Json} {m : List (Str × Json)} (hk : k ∉ m.map (·.1)) {p : Str × Json} :
    p ∈ Json.mapInsert k v m ↔ p = (k, v) ∨ p ∈ m := by
  induction m with
  | nil => simp [Json.mapInsert]
  | cons q m ih =>
    obtain ⟨k', v'⟩ := q
    simp only [List.map_cons, List.mem_cons, not_or] at hk
    unfold Json.mapInsert
    rw [if_neg hk.1]
    split
    · simp
    · rw [List.mem_cons, ih hk.2, List.mem_cons]
      tauto

theorem valuePairs_keys (kvs : List (Str × Json)) (x : Str) : x ∈ (Json.valuePairs kvs).map (·.1) ↔ x ∈ kvs.map (·.1) := by
  induction kvs with
  | nil => simp [Json.valuePairs]
  | cons p kvs ih =>
    obtain ⟨k, v⟩ := p
    unfold Json.valuePairs
    split
    · rename_i h
      rw [ih, List.map_cons, List.mem_cons]
      constructor
      · exact .inr
      · rintro (rfl | h')
        · exact h
        · exact h'
    · rw [mapInsert_keys, ih, List.map_cons, List.mem_cons]

theorem valuePairs_sorted (kvs : List (Str × Json)) : SortedKeys (Json.valuePairs kvs) := by
  induction kvs with
  | nil => simp [Json.valuePairs, SortedKeys]
  | cons p kvs ih =>
    obtain ⟨k, v⟩ := p
    unfold Json.valuePairs
    split
    · exact ih
    · exact mapInsert_sorted ih

theorem mem_valuePairs {kvs : List (Str × Json)} {k : Str} {w : Json} : (k, w) ∈ Json.valuePairs kvs ↔ ∃ v, LastMember kvs k v ∧ w = v.value := by
  induction kvs with
  | nil => simp [Json.valuePairs, lastMember_nil]
  | cons p kvs ih =>
    obtain ⟨k0, v0⟩ := p
    unfold Json.valuePairs
    simp only [lastMember_cons]
    split
    · rename_i h
      rw [ih]
      refine exists_congr fun v => and_congr_left fun _ => ?_
      constructor
      · exact .inl
      · rintro (h' | ⟨rfl, _, h'⟩)
        · exact h'
        · exact absurd h h'
    · rename_i h
      rw [mem_mapInsert (by rw [valuePairs_keys]; exact h), ih]
      constructor
      · rintro (h' | ⟨v, h1, h2⟩)
        · cases h'; exact ⟨v0, .inr ⟨rfl, rfl, h⟩, rfl⟩
        · exact ⟨v, .inl h1, h2⟩
      · rintro ⟨v, h1 | ⟨rfl, rfl, _⟩, rfl⟩
        · exact .inr ⟨v, h1, rfl⟩
        · exact .inl rfl

theorem sorted_ext {a b : List (Str × Json)} (ha : SortedKeys a) (hb : SortedKeys b) (h : ∀ p, p ∈ a ↔ p ∈ b) : a = b := by
  induction a generalizing b with
  | nil =>
    cases b with
    | nil => rfl
    | cons q b => exact absurd ((h q).mpr (by simp)) (by simp)
  | cons p a ih =>
    cases b with
    | nil => exact absurd ((h p).mp (by simp)) (by simp)
    | cons q b =>
      unfold SortedKeys at ha hb
      rw [List.map_cons, List.pairwise_cons] at ha hb
      have hpq : p = q := by
        rcases List.mem_cons.mp ((h p).mp (by simp)) with e | h1
        · exact e
        rcases List.mem_cons.mp ((h q).mpr (by simp)) with e | h2
        · exact e.symm
        have h3 := hb.1 p.1 (List.mem_map.mpr ⟨p, h1, rfl⟩)
        have h4 := ha.1 q.1 (List.mem_map.mpr ⟨q, h2, rfl⟩)
        exact absurd (strLe_antisymm h3.1 h4.1) h3.2
      subst hpq
      congr 1
      refine ih ha.2 hb.2 fun r => ?_
      have hr := h r
      rw [List.mem_cons, List.mem_cons] at hr
      constructor
      · intro hm
        rcases hr.mp (.inr hm) with rfl | h'
        · exact absurd rfl (ha.1 r.1 (List.mem_map.mpr ⟨r, hm, rfl⟩)).2
        · exact h'
      · intro hm
        rcases hr.mpr (.inr hm) with rfl | h'
        · exact absurd rfl (hb.1 r.1 (List.mem_map.mpr ⟨r, hm, rfl⟩)).2
        · exact h'

theorem valuePairs_congr {a b : List (Str × Json)} (h : ∀ k w, (∃ v, LastMember a k v ∧ w = v.value) ↔ ∃ v, LastMember b k v ∧ w = v.value) :
    Json.valuePairs a = Json.valuePairs b := by
  refine sorted_ext (valuePairs_sorted a) (valuePairs_sorted b) fun p => ?_
  obtain ⟨k, w⟩ := p
  rw [mem_valuePairs, mem_valuePairs, h]

theorem valueList_append (a b : List Json) : Json.valueList (a ++ b) = Json.valueList a ++ Json.valueList b := by
  induction a with
  | nil => rfl
  | cons x a ih => simp [Json.valueList, ih]

/-- Documents with the same meaning have the same canonical form. -/
theorem sameDoc_value {a b : Json} (h : SameDoc a b) : a.value = b.value := by
  induction h with
  | refl => rfl
  | symm _ ih => exact ih.symm
  | trans _ _ ih1 ih2 => exact ih1.trans ih2
  | swap pre p q post hne =>
    obtain ⟨k1, v1⟩ := p
    obtain ⟨k2, v2⟩ := q
    dsimp only at hne
    simp only [Json.value]
    congr 1
    refine valuePairs_congr fun k w => exists_congr fun v => and_congr_left fun _ => ?_
    simp only [lastMember_append, lastMember_cons, List.map_cons, List.mem_cons, not_or]
    constructor
    · rintro (((h | ⟨rfl, rfl, h⟩) | ⟨rfl, rfl, h⟩) | ⟨h, h1, h2, h3⟩)
      · exact .inl (.inl (.inl h))
      · exact .inl (.inr ⟨rfl, rfl, Ne.symm hne, h⟩)
      · exact .inl (.inl (.inr ⟨rfl, rfl, h.2⟩))
      · exact .inr ⟨h, h2, h1, h3⟩
    · rintro (((h | ⟨rfl, rfl, h⟩) | ⟨rfl, rfl, h⟩) | ⟨h, h1, h2, h3⟩)
      · exact .inl (.inl (.inl h))
      · exact .inl (.inr ⟨rfl, rfl, hne, h⟩)
      · exact .inl (.inl (.inr ⟨rfl, rfl, h.2⟩))
      · exact .inr ⟨h, h2, h1, h3⟩
  | overridden pre p post hm =>
    obtain ⟨k1, v1⟩ := p
    dsimp only at hm
    simp only [Json.value]
    congr 1
    refine valuePairs_congr fun k w => exists_congr fun v => and_congr_left fun _ => ?_
    simp only [lastMember_append, lastMember_cons, List.map_cons, List.mem_cons, not_or]
    constructor
    · rintro ((h | ⟨rfl, rfl, h⟩) | ⟨h, h1, h2⟩)
      · exact .inl h
      · exact absurd hm h
      · exact .inr ⟨h, h2⟩
    · rintro (h | ⟨h, h2⟩)
      · exact .inl (.inl h)
      · exact .inr ⟨h, fun e => h2 (by rw [e]; exact hm), h2⟩
  | elem pre post _ ih => simp only [Json.value, valueList_append, Json.valueList, ih]
  | member pre k0 post _ ih =>
    simp only [Json.value]
    congr 1
    refine valuePairs_congr fun k w => ?_
    simp only [lastMember_append, lastMember_cons, List.map_cons]
    constructor
    · rintro ⟨v, (h | ⟨rfl, rfl, h⟩) | h, rfl⟩
      · exact ⟨v, .inl (.inl h), rfl⟩
      · exact ⟨_, .inl (.inr ⟨rfl, rfl, h⟩), ih⟩
      · exact ⟨v, .inr h, rfl⟩
    · rintro ⟨v, (h | ⟨rfl, rfl, h⟩) | h, rfl⟩
      · exact ⟨v, .inl (.inl h), rfl⟩
      · exact ⟨_, .inl (.inr ⟨rfl, rfl, h⟩), ih.symm⟩
      · exact ⟨v, .inr h, rfl⟩

/-! ### The canonical form is canonical -/

theorem canonicalMembers_insert {k : Str} {v : Json} {m : List (Str × Json)} (hv : Canonical v) (h : CanonicalMembers m) :
    CanonicalMembers (Json.mapInsert k v m) := by
  induction m with
  | nil => exact ⟨hv, trivial⟩
  | cons p m ih =>
    obtain ⟨k', v'⟩ := p
    simp only [CanonicalMembers] at h
    unfold Json.mapInsert
    split
    · exact ⟨hv, h.2⟩
    split
    · exact ⟨hv, h.1, h.2⟩
    · exact ⟨h.1, ih h.2⟩

mutual
theorem canonical_value : ∀ j : Json, Canonical j.value
  | .null => by simp [Json.value, Canonical]
  | .bool _ => by simp [Json.value, Canonical]
  | .int _ => by simp [Json.value, Canonical]
  | .float => by simp [Json.value, Canonical]
  | .str _ => by simp [Json.value, Canonical]
  | .arr xs => by
    simp only [Json.value, Canonical]
    exact canonical_list xs
  | .obj kvs => by
    simp only [Json.value, Canonical]
    exact ⟨valuePairs_sorted kvs, canonical_members kvs⟩
theorem canonical_list : ∀ xs : List Json, CanonicalList (Json.valueList xs)
  | [] => by simp [Json.valueList, CanonicalList]
  | x :: xs => by
    simp only [Json.valueList, CanonicalList]
    exact ⟨canonical_value x, canonical_list xs⟩
theorem canonical_members : ∀ kvs : List (Str × Json), CanonicalMembers (Json.valuePairs kvs)
  | [] => by simp [Json.valuePairs, CanonicalMembers]
  | (k, v) :: rest => by
    simp only [Json.valuePairs]
    split
    · exact canonical_members rest
    · exact canonicalMembers_insert (canonical_value v) (canonical_members rest)
end

theorem mapInsert_first {k : Str} {v : Json} {m : List (Str × Json)} (h : ∀ x ∈ m.map (·.1), strLe k x = true ∧ k ≠ x) :
    Json.mapInsert k v m = (k, v) :: m := by
  cases m with
  | nil => rfl
  | cons p m =>
    obtain ⟨k', v'⟩ := p
    have := h k' (by simp)
    unfold Json.mapInsert
    rw [if_neg this.2, if_pos this.1]

mutual
theorem value_canonical : ∀ j : Json, Canonical j → j.value = j
  | .null, _ => rfl
  | .bool _, _ => rfl
  | .int _, _ => rfl
  | .float, _ => rfl
  | .str _, _ => rfl
  | .arr xs, h => by
    simp only [Canonical] at h
    simp only [Json.value, value_list xs h]
  | .obj kvs, h => by
    simp only [Canonical] at h
    simp only [Json.value, value_members kvs h.1 h.2]
theorem value_list : ∀ xs : List Json, CanonicalList xs → Json.valueList xs = xs
  | [], _ => rfl
  | x :: xs, h => by
    simp only [CanonicalList] at h
    simp only [Json.valueList, value_canonical x h.1, value_list xs h.2]
theorem value_members : ∀ kvs : List (Str × Json), SortedKeys kvs → CanonicalMembers kvs → Json.valuePairs kvs = kvs
  | [], _, _ => rfl
  | (k, v) :: rest, hs, h => by
    simp only [CanonicalMembers] at h
    have hs' := List.pairwise_cons.mp hs
    simp only [Json.valuePairs]
    rw [if_neg (fun hk => (hs'.1 k hk).2 rfl), value_canonical v h.1, value_members rest hs'.2 h.2, mapInsert_first hs'.1]
end

/-! ### Every document has the same meaning as its canonical form -/

theorem sameDoc_insert {k : Str} {w : Json} (m : List (Str × Json)) (hk : k ∉ m.map (·.1)) (pre : List (Str × Json)) :
    SameDoc (.obj (pre ++ (k, w) :: m)) (.obj (pre ++ Json.mapInsert k w m)) := by
  induction m generalizing pre with
  | nil => exact .refl _
  | cons p m ih =>
    obtain ⟨k', v'⟩ := p
    simp only [List.map_cons, List.mem_cons, not_or] at hk
    unfold Json.mapInsert
    rw [if_neg hk.1]
    split
    · exact .refl _
    · refine .trans (.swap pre (k, w) (k', v') m hk.1) ?_
      have := ih hk.2 (pre ++ [(k', v')])
      simpa using this

mutual
/-- A document differs from its canonical form only in the order of members and in overridden members. -/
theorem value_sameDoc : ∀ j : Json, SameDoc j j.value
  | .null => .refl _
  | .bool _ => .refl _
  | .int _ => .refl _
  | .float => .refl _
  | .str _ => .refl _
  | .arr xs => by simp only [Json.value]; exact list_sameDoc xs []
  | .obj kvs => by simp only [Json.value]; exact members_sameDoc kvs []
theorem list_sameDoc : ∀ (xs pre : List Json), SameDoc (.arr (pre ++ xs)) (.arr (pre ++ Json.valueList xs))
  | [], _ => .refl _
  | x :: xs, pre => by
    simp only [Json.valueList]
    refine .trans (.elem pre xs (value_sameDoc x)) ?_
    have := list_sameDoc xs (pre ++ [x.value])
    simpa using this
theorem members_sameDoc : ∀ (kvs pre : List (Str × Json)), SameDoc (.obj (pre ++ kvs)) (.obj (pre ++ Json.valuePairs kvs))
  | [], _ => .refl _
  | (k, v) :: rest, pre => by
    simp only [Json.valuePairs]
    split
    · rename_i h
      exact .trans (.overridden pre (k, v) rest h) (members_sameDoc rest pre)
    · rename_i h
      refine .trans (.member pre k rest (value_sameDoc v)) ?_
      have h1 := members_sameDoc rest (pre ++ [(k, v.value)])
      rw [List.append_assoc, List.append_assoc] at h1
      exact .trans h1 (sameDoc_insert (Json.valuePairs rest) (fun hk => h ((valuePairs_keys _ _).mp hk)) pre)
end

theorem value_iff {j v : Json} : j.value = v ↔ SameDoc j v ∧ Canonical v := by
  constructor
  · rintro rfl; exact ⟨value_sameDoc j, canonical_value j⟩
  · rintro ⟨h1, h2⟩; rw [sameDoc_value h1, value_canonical v h2]

end Verif.Model
