import Verif.Proofs.Path
/-! Names, JSON forms and loading of configurations. -/
namespace Verif.Model
open Verif.Spec

theorem asStr_kindName (k : DictionaryKind) : k.asStr = (kindName k).toList := by cases k <;> rfl

theorem serdeName_kindName (k : DictionaryKind) : k.serdeName = (kindName k).toList := by cases k <;> rfl

theorem fromStr_asStr (k : DictionaryKind) : DictionaryKind.fromStr k.asStr = .ok k := by
  cases k <;> decide +kernel

theorem fromStr_ok {s : Str} {k : DictionaryKind} (h : DictionaryKind.fromStr s = .ok k) : s = k.asStr := by
  unfold DictionaryKind.fromStr at h
  repeat' split at h
  all_goals first | (cases h; subst s; rfl) | cases h

theorem fromStr_cases (s : Str) : (∃ k, DictionaryKind.fromStr s = .ok k) ∨ DictionaryKind.fromStr s = .error (.err .dictionaryKindError) := by
  unfold DictionaryKind.fromStr
  repeat' split
  all_goals simp

theorem named_iff {s : Str} {k : DictionaryKind} : DictionaryKind.named s = some k ↔ s = (kindName k).toList := by
  constructor
  · intro h
    have := List.find?_some h
    rw [← serdeName_kindName]
    simpa using (beq_iff_eq.mp this).symm
  · rintro rfl
    cases k <;> decide +kernel

theorem kind_de {j : Json} {k : DictionaryKind} : DictionaryKind.de j = some k ↔ KindValue j k := by
  unfold DictionaryKind.de De.unitVariant KindValue
  split
  · rw [named_iff]; simp
  · rw [named_iff]; simp
  · rename_i h1 h2
    constructor
    · intro h; cases h
    · rintro (rfl | rfl)
      · exact absurd rfl (h1 _)
      · exact absurd rfl (h2 _)

theorem path_de {j : Json} {p : Path} : Path.de j = some p ↔ PathValue j p := by
  unfold Path.de De.string PathValue
  cases j <;> simp [Json.asStr, eq_comm]

theorem usize_de {j : Json} {n : Nat} : De.usize j = some n ↔ NatValue j n := by
  unfold NatValue
  cases j with
  | int m =>
    unfold De.usize
    simp only
    split
    · rename_i h
      simp only [Option.some.injEq, Json.int.injEq]
      omega
    · rename_i h
      simp only [reduceCtorEq, Json.int.injEq, false_iff]
      omega
  | _ => simp [De.usize]

theorem i32_de {j : Json} {n : Int32} : De.i32 j = some n ↔ IntValue j n := by
  unfold IntValue
  cases j with
  | int m =>
    unfold De.i32
    simp only
    split
    · rename_i h
      simp only [Option.some.injEq, Json.int.injEq]
      constructor
      · rintro rfl
        exact (Int32.toInt_ofInt_of_le (by simpa using h.1) (by omega)).symm
      · rintro rfl
        exact Int32.ofInt_toInt n
    · rename_i h
      simp only [reduceCtorEq, Json.int.injEq, false_iff]
      rintro rfl
      have h1 := Int32.le_toInt n
      have h2 := Int32.toInt_lt n
      exact h ⟨by omega, by omega⟩
  | _ => simp [De.i32]

theorem field_iff {kvs : List (Str × Json)} {name : String} {P : Option Json → Prop} :
    Member kvs name P ↔ ∃ r, De.field kvs name.toList = some r ∧ P r := by
  unfold Member De.field
  have hf : (kvs.filter fun p => p.1 == name.toList) = kvs.filter fun p => p.1 = name.toList := by
    congr 1; funext p; exact beq_eq_decide _ _
  rw [hf]
  constructor
  · rintro (⟨v, h, hP⟩ | ⟨h, hP⟩)
    · rw [h]; exact ⟨_, rfl, hP⟩
    · have : kvs.filter (fun p => p.1 = name.toList) = [] := by
        rw [List.filter_eq_nil_iff]
        intro p hp hp'
        exact h (List.mem_map.mpr ⟨p, hp, by simpa using hp'⟩)
      rw [this]; exact ⟨_, rfl, hP⟩
  · rintro ⟨r, h, hP⟩
    split at h
    · rename_i h0
      cases h
      refine .inr ⟨?_, hP⟩
      rw [List.mem_map]
      rintro ⟨p, hp, hp'⟩
      exact List.filter_eq_nil_iff.mp h0 p hp (by simpa using hp')
    · rename_i p h0
      cases h
      have hp : p ∈ kvs.filter (fun p => p.1 = name.toList) := by rw [h0]; simp
      have := (List.mem_filter.mp hp).2
      refine .inl ⟨p.2, ?_, hP⟩
      rw [h0, ← (by simpa using this : p.1 = name.toList)]
    · cases h

theorem required_iff {α : Type} {d : De α} {V : Json → α → Prop} (h : ∀ j a, d j = some a ↔ V j a) {v : Option Json} {a : α} :
    De.required d v = some a ↔ ReqValue V v a := by
  unfold De.required ReqValue
  cases v <;> simp [h]

theorem optional_iff {α : Type} {d : De α} {V : Json → α → Prop} (h : ∀ j a, d j = some a ↔ V j a) {v : Option Json} {a : Option α} :
    De.optional d v = some a ↔ OptValue V v a := by
  unfold OptValue
  cases v with
  | none => simp [De.optional, eq_comm]
  | some j =>
    by_cases hj : j = .null
    · subst hj
      simp [De.optional, De.option, eq_comm]
    · have : De.option d j = (d j).map some := by
        cases j <;> first | rfl | exact absurd rfl hj
      simp only [De.optional, this, Option.map_eq_some_iff, h]
      simp [hj, eq_comm]

theorem kind_opt {v : Option Json} {o : Option DictionaryKind} : De.optional DictionaryKind.de v = some o ↔ OptValue KindValue v o :=
  optional_iff (d := DictionaryKind.de) fun _ _ => kind_de

theorem path_opt {v : Option Json} {o : Option Path} : De.optional Path.de v = some o ↔ OptValue PathValue v o :=
  optional_iff (d := Path.de) fun _ _ => path_de

theorem path_req {v : Option Json} {o : Path} : De.required Path.de v = some o ↔ ReqValue PathValue v o :=
  required_iff (d := Path.de) fun _ _ => path_de

theorem usize_req {v : Option Json} {o : Nat} : De.required De.usize v = some o ↔ ReqValue NatValue v o :=
  required_iff (d := De.usize) fun _ _ => usize_de

theorem i32_req {v : Option Json} {o : Int32} : De.required De.i32 v = some o ↔ ReqValue IntValue v o :=
  required_iff (d := De.i32) fun _ _ => i32_de

theorem dictionary_de {j : Json} {c : DictionaryConfig} : DictionaryConfig.de j = some c ↔ DictionaryValue j c := by
  unfold DictionaryValue
  simp only [field_iff]
  cases j with
  | obj kvs =>
    simp only [DictionaryConfig.de, De.fields, List.mapM_cons, List.mapM_nil, Option.bind_eq_bind, Option.pure_def, Option.bind_some]
    constructor
    · intro h
      simp only [Option.bind_eq_some_iff, Option.some.injEq] at h
      obtain ⟨fs, ⟨k, hk, ps, ⟨p, hp, rfl⟩, rfl⟩, h⟩ := h
      dsimp only at h
      simp only [Option.bind_eq_some_iff, Option.some.injEq] at h
      obtain ⟨a, ha, b, hb, rfl⟩ := h
      exact .inl ⟨kvs, rfl, ⟨k, hk, kind_opt.mp ha⟩, ⟨p, hp, path_opt.mp hb⟩⟩
    · rintro (⟨kvs', h, ⟨k, hk, ha⟩, p, hp, hb⟩ | ⟨_, _, h, _⟩)
      · cases h
        have ha := kind_opt.mpr ha
        have hb := path_opt.mpr hb
        rw [hk, hp]; simp only [Option.bind_some, ha, hb]
      · cases h
  | arr xs =>
    simp only [DictionaryConfig.de, De.fields]
    constructor
    · intro h
      simp only [Option.bind_eq_bind, Option.bind_eq_some_iff] at h
      obtain ⟨fs, hfs, h⟩ := h
      split at hfs
      case isFalse => cases hfs
      rename_i hlen
      match xs, hlen with
      | [k, p], _ =>
        cases hfs
        simp only [List.map_cons, List.map_nil, Option.bind_eq_some_iff, Option.pure_def, Option.some.injEq] at h
        obtain ⟨a, ha, b, hb, rfl⟩ := h
        exact .inr ⟨k, p, rfl, kind_opt.mp ha, path_opt.mp hb⟩
    · rintro (⟨_, h, _⟩ | ⟨k, p, h, ha, hb⟩)
      · cases h
      · cases h
        have ha := kind_opt.mpr ha
        have hb := path_opt.mpr hb
        simp [ha, hb]
  | _ => simp [DictionaryConfig.de, De.fields]

theorem user_de {j : Json} {c : UserDictionaryConfig} : UserDictionaryConfig.de j = some c ↔ UserValue j c := by
  unfold UserValue
  simp only [field_iff]
  cases j with
  | obj kvs =>
    simp only [UserDictionaryConfig.de, De.fields, List.mapM_cons, List.mapM_nil, Option.bind_eq_bind, Option.pure_def, Option.bind_some]
    constructor
    · intro h
      simp only [Option.bind_eq_some_iff, Option.some.injEq] at h
      obtain ⟨fs, ⟨p, hp, ps, ⟨k, hk, rfl⟩, rfl⟩, h⟩ := h
      dsimp only at h
      simp only [Option.bind_eq_some_iff, Option.some.injEq] at h
      obtain ⟨b, hb, a, ha, rfl⟩ := h
      exact .inl ⟨kvs, rfl, ⟨p, hp, path_req.mp hb⟩, ⟨k, hk, kind_opt.mp ha⟩⟩
    · rintro (⟨kvs', h, ⟨p, hp, hb⟩, k, hk, ha⟩ | ⟨_, _, h, _⟩)
      · cases h
        have ha := kind_opt.mpr ha
        have hb := path_req.mpr hb
        rw [hk, hp]; simp only [Option.bind_some, ha, hb]
      · cases h
  | arr xs =>
    simp only [UserDictionaryConfig.de, De.fields]
    constructor
    · intro h
      simp only [Option.bind_eq_bind, Option.bind_eq_some_iff] at h
      obtain ⟨fs, hfs, h⟩ := h
      split at hfs
      case isFalse => cases hfs
      rename_i hlen
      match xs, hlen with
      | [p, k], _ =>
        cases hfs
        simp only [List.map_cons, List.map_nil, Option.bind_eq_some_iff, Option.pure_def, Option.some.injEq] at h
        obtain ⟨b, hb, a, ha, rfl⟩ := h
        exact .inr ⟨p, k, rfl, path_de.mp hb, kind_opt.mp ha⟩
    · rintro (⟨_, h, _⟩ | ⟨p, k, h, hb, ha⟩)
      · cases h
      · cases h
        have ha := kind_opt.mpr ha
        have hb := path_de.mpr hb
        simp [De.required, ha, hb]
  | _ => simp [UserDictionaryConfig.de, De.fields]

theorem penalty_de {j : Json} {c : Penalty} : Penalty.de j = some c ↔ PenaltyValue j c := by
  unfold PenaltyValue
  simp only [field_iff]
  cases j with
  | obj kvs =>
    simp only [Penalty.de, De.fields, List.mapM_cons, List.mapM_nil, Option.bind_eq_bind, Option.pure_def, Option.bind_some]
    constructor
    · intro h
      simp only [Option.bind_eq_some_iff, Option.some.injEq] at h
      obtain ⟨fs, ⟨v1, h1, r1, ⟨v2, h2, r2, ⟨v3, h3, r3, ⟨v4, h4, rfl⟩, rfl⟩, rfl⟩, rfl⟩, h⟩ := h
      dsimp only at h
      simp only [Option.bind_eq_some_iff, Option.some.injEq] at h
      obtain ⟨a, ha, b, hb, c, hc, d, hd, rfl⟩ := h
      exact .inl ⟨kvs, rfl, ⟨v1, h1, usize_req.mp ha⟩, ⟨v2, h2, i32_req.mp hb⟩,
        ⟨v3, h3, usize_req.mp hc⟩, ⟨v4, h4, i32_req.mp hd⟩⟩
    · rintro (⟨kvs', h, ⟨v1, h1, ha⟩, ⟨v2, h2, hb⟩, ⟨v3, h3, hc⟩, ⟨v4, h4, hd⟩⟩ | ⟨_, _, _, _, h, _⟩)
      · cases h
        have ha := usize_req.mpr ha
        have hb := i32_req.mpr hb
        have hc := usize_req.mpr hc
        have hd := i32_req.mpr hd
        rw [h1, h2, h3, h4]; simp only [Option.bind_some, ha, hb, hc, hd]
      · cases h
  | arr xs =>
    simp only [Penalty.de, De.fields]
    constructor
    · intro h
      simp only [Option.bind_eq_bind, Option.bind_eq_some_iff] at h
      obtain ⟨fs, hfs, h⟩ := h
      split at hfs
      case isFalse => cases hfs
      rename_i hlen
      match xs, hlen with
      | [v1, v2, v3, v4], _ =>
        cases hfs
        simp only [List.map_cons, List.map_nil, Option.bind_eq_some_iff, Option.pure_def, Option.some.injEq] at h
        obtain ⟨a, ha, b, hb, c, hc, d, hd, rfl⟩ := h
        exact .inr ⟨v1, v2, v3, v4, rfl, usize_de.mp ha, i32_de.mp hb, usize_de.mp hc, i32_de.mp hd⟩
    · rintro (⟨_, h, _⟩ | ⟨v1, v2, v3, v4, h, ha, hb, hc, hd⟩)
      · cases h
      · cases h
        have ha := usize_de.mpr ha
        have hb := i32_de.mpr hb
        have hc := usize_de.mpr hc
        have hd := i32_de.mpr hd
        simp [De.required, ha, hb, hc, hd]
  | _ => simp [Penalty.de, De.fields]

theorem mode_de {j : Json} {m : Mode} : Mode.de j = some m ↔ ModeValue j m := by
  unfold Mode.de
  split
  · rename_i s
    cases m <;> simp [ModeValue]
  · rename_i k v
    split
    · rename_i hk
      subst hk
      split
      · cases m <;> simp [ModeValue]
      · rename_i hv
        cases m with
        | normal => simp only [reduceCtorEq, ModeValue, false_or, Json.obj.injEq, List.cons.injEq, Prod.mk.injEq, true_and, and_true, false_iff]; exact hv
        | decompose p => simp [ModeValue]
    · rename_i hk
      split
      · rename_i hk
        subst hk
        cases m with
        | normal => simp [ModeValue]
        | decompose p => simp [ModeValue, penalty_de]
      · rename_i hk'
        cases m with
        | normal =>
          simp only [ModeValue, reduceCtorEq, false_or, Json.obj.injEq, List.cons.injEq, Prod.mk.injEq, and_true, false_iff, not_and]
          exact fun h => absurd h hk
        | decompose p =>
          simp only [ModeValue, reduceCtorEq, Json.obj.injEq, List.cons.injEq, Prod.mk.injEq, and_true, false_iff, not_exists, not_and]
          exact fun _ h => absurd h.1 hk'
  · rename_i h1 h2
    constructor
    · intro h; cases h
    · cases m with
      | normal =>
        rintro (rfl | rfl)
        · exact absurd rfl (h1 _)
        · exact absurd rfl (h2 _ _)
      | decompose p =>
        rintro ⟨v, rfl, _⟩
        exact absurd rfl (h2 _ _)

/-! ### The object of a tokenizer configuration -/

/-- What the members do to one variable of `visit_map`. -/
def Slot {α : Type} (key : Str) (d : De α) (f : Option α) (kvs : List (Str × Json)) (f' : Option α) : Prop :=
  (key ∉ kvs.map (·.1) ∧ f' = f) ∨ (f = none ∧ ∃ v a, (key, v) ∈ kvs ∧ d v = some a ∧ f' = some a)

theorem slot_same {α : Type} {key : Str} {d : De α} {f f' : Option α} {v : Json} {rest : List (Str × Json)} :
    (Slot key d f ((key, v) :: rest) f' ∧ key ∉ rest.map (·.1)) ↔ f = none ∧ ∃ a, d v = some a ∧ Slot key d (some a) rest f' := by
  unfold Slot
  constructor
  · rintro ⟨⟨h, _⟩ | ⟨hf, w, a, hm, hd, rfl⟩, hk⟩
    · simp at h
    · rcases List.mem_cons.mp hm with h | h
      · cases h
        exact ⟨hf, a, hd, .inl ⟨hk, rfl⟩⟩
      · exact absurd (List.mem_map.mpr ⟨_, h, rfl⟩) hk
  · rintro ⟨hf, a, hd, ⟨hk, rfl⟩ | ⟨h, _⟩⟩
    · exact ⟨.inr ⟨hf, v, a, by simp, hd, rfl⟩, hk⟩
    · cases h

theorem slot_other {α : Type} {key k : Str} {d : De α} {f f' : Option α} {v : Json} {rest : List (Str × Json)} (hk : key ≠ k) :
    Slot key d f ((k, v) :: rest) f' ↔ Slot key d f rest f' := by
  unfold Slot
  simp [hk]

theorem visit_iff {kvs : List (Str × Json)} {st st' : ConfigFields} : kvs.foldlM ConfigFields.step st = some st' ↔
    (kvs.map (·.1)).Nodup ∧ (∀ k ∈ kvs.map (·.1), k = "dictionary".toList ∨ k = "user_dictionary".toList ∨ k = "mode".toList) ∧
    Slot "dictionary".toList DictionaryConfig.de st.dictionary kvs st'.dictionary ∧
    Slot "user_dictionary".toList UserDictionaryConfig.de st.userDictionary kvs st'.userDictionary ∧
    Slot "mode".toList Mode.de st.mode kvs st'.mode := by
  have n1 : ("dictionary".toList : Str) ≠ "user_dictionary".toList := by decide
  have n2 : ("dictionary".toList : Str) ≠ "mode".toList := by decide
  have n3 : ("user_dictionary".toList : Str) ≠ "mode".toList := by decide
  generalize hA : ("dictionary".toList : Str) = A at *
  generalize hB : ("user_dictionary".toList : Str) = B at *
  generalize hC : ("mode".toList : Str) = C at *
  induction kvs generalizing st with
  | nil =>
    simp only [List.foldlM_nil, Option.pure_def, Option.some.injEq, Slot]
    cases st; cases st'
    simp [eq_comm]
  | cons kv rest ih =>
    obtain ⟨k, v⟩ := kv
    rw [List.foldlM_cons]
    simp only [Option.bind_eq_bind, Option.bind_eq_some_iff, ih]
    have hstep : ∀ s, ConfigFields.step st (k, v) = some s ↔
        (k = A ∧ st.dictionary = none ∧ ∃ a, DictionaryConfig.de v = some a ∧ s = { st with dictionary := some a }) ∨
        (k = B ∧ st.userDictionary = none ∧ ∃ a, UserDictionaryConfig.de v = some a ∧ s = { st with userDictionary := some a }) ∨
        (k = C ∧ st.mode = none ∧ ∃ a, Mode.de v = some a ∧ s = { st with mode := some a }) := by
      intro s
      unfold ConfigFields.step
      rw [hA, hB, hC]
      dsimp only
      by_cases h1 : k = A
      · subst h1
        rw [if_pos rfl]
        cases st.dictionary <;> simp [n1, n2, Option.map_eq_some_iff, eq_comm (b := s)]
      · rw [if_neg h1]
        by_cases h2 : k = B
        · subst h2
          rw [if_pos rfl]
          cases st.userDictionary <;> simp [h1, n3, Option.map_eq_some_iff, eq_comm (b := s)]
        · rw [if_neg h2]
          by_cases h3 : k = C
          · subst h3
            rw [if_pos rfl]
            cases st.mode <;> simp [h1, h2, Option.map_eq_some_iff, eq_comm (b := s)]
          · rw [if_neg h3]
            simp [h1, h2, h3]
    simp only [hstep]
    rw [List.map_cons, List.nodup_cons]
    constructor
    · rintro ⟨s, h, hnd, hkn, s1, s2, s3⟩
      rcases h with ⟨rfl, hf, a, ha, rfl⟩ | ⟨rfl, hf, a, ha, rfl⟩ | ⟨rfl, hf, a, ha, rfl⟩
      · obtain ⟨hs, hk⟩ := slot_same.mpr ⟨hf, a, ha, s1⟩
        exact ⟨⟨hk, hnd⟩, by simpa using hkn, hs, (slot_other n1.symm).mpr s2, (slot_other n2.symm).mpr s3⟩
      · obtain ⟨hs, hk⟩ := slot_same.mpr ⟨hf, a, ha, s2⟩
        exact ⟨⟨hk, hnd⟩, by simpa using hkn, (slot_other n1).mpr s1, hs, (slot_other n3.symm).mpr s3⟩
      · obtain ⟨hs, hk⟩ := slot_same.mpr ⟨hf, a, ha, s3⟩
        exact ⟨⟨hk, hnd⟩, by simpa using hkn, (slot_other n2).mpr s1, (slot_other n3).mpr s2, hs⟩
    · rintro ⟨⟨hk, hnd⟩, hkn, s1, s2, s3⟩
      have hkn' : ∀ k ∈ rest.map (·.1), k = A ∨ k = B ∨ k = C := fun x hx => hkn x (List.mem_cons_of_mem _ hx)
      rcases hkn k (by simp) with rfl | rfl | rfl
      · obtain ⟨hf, a, ha, hs⟩ := slot_same.mp ⟨s1, hk⟩
        exact ⟨_, .inl ⟨rfl, hf, a, ha, rfl⟩, hnd, hkn', hs, (slot_other n1.symm).mp s2, (slot_other n2.symm).mp s3⟩
      · obtain ⟨hf, a, ha, hs⟩ := slot_same.mp ⟨s2, hk⟩
        exact ⟨_, .inr (.inl ⟨rfl, hf, a, ha, rfl⟩), hnd, hkn', (slot_other n1).mp s1, hs, (slot_other n3.symm).mp s3⟩
      · obtain ⟨hf, a, ha, hs⟩ := slot_same.mp ⟨s3, hk⟩
        exact ⟨_, .inr (.inr ⟨rfl, hf, a, ha, rfl⟩), hnd, hkn', (slot_other n2).mp s1, (slot_other n3).mp s2, hs⟩

theorem config_de {kvs : List (Str × Json)} {c : TokenizerConfig} : TokenizerConfig.de (.obj kvs) = some c ↔ ConfigMembers kvs c := by
  unfold TokenizerConfig.de TokenizerConfig.visitMap
  simp only [Option.bind_eq_some_iff, visit_iff, ConfigFields.finish, Option.map_eq_some_iff]
  constructor
  · rintro ⟨st, ⟨hnd, hkn, s1, s2, s3⟩, d, hd, rfl⟩
    refine ⟨hnd, hkn, ?_, ?_, ?_⟩
    · rcases s1 with ⟨_, h⟩ | ⟨_, v, a, hm, ha, h⟩
      · rw [hd] at h; cases h
      · rw [hd] at h; cases h
        exact ⟨v, hm, dictionary_de.mp ha⟩
    · rcases s2 with ⟨hk, h⟩ | ⟨_, v, a, hm, ha, h⟩
      · exact .inl ⟨hk, h⟩
      · exact .inr ⟨v, a, hm, user_de.mp ha, h⟩
    · rcases s3 with ⟨hk, h⟩ | ⟨_, v, a, hm, ha, h⟩
      · exact .inl ⟨hk, by dsimp only; rw [h]; rfl⟩
      · exact .inr ⟨v, hm, by dsimp only; rw [h]; exact mode_de.mp ha⟩
  · rintro ⟨hnd, hkn, ⟨v, hm, hv⟩, h2, h3⟩
    obtain ⟨m, hs3, hmm⟩ : ∃ m : Option Mode, Slot "mode".toList Mode.de none kvs m ∧ m.getD .normal = c.mode := by
      rcases h3 with ⟨hk, h⟩ | ⟨w, hw, hmw⟩
      · exact ⟨none, .inl ⟨hk, rfl⟩, h.symm⟩
      · exact ⟨some c.mode, .inr ⟨rfl, w, _, hw, mode_de.mpr hmw, rfl⟩, rfl⟩
    refine ⟨⟨some c.dictionary, c.userDictionary, m⟩, ⟨hnd, hkn, ?_, ?_, hs3⟩, c.dictionary, rfl, ?_⟩
    · exact .inr ⟨rfl, v, _, hm, dictionary_de.mpr hv, rfl⟩
    · rcases h2 with ⟨hk, h⟩ | ⟨w, u, hw, hu, h⟩
      · exact .inl ⟨hk, h⟩
      · exact .inr ⟨rfl, w, u, hw, user_de.mpr hu, h⟩
    · cases c; simp only [TokenizerConfig.mk.injEq, true_and]; exact hmm

/-! ### Serialization -/

theorem decodeUtf8_eq_some {b : List UInt8} {s : Str} : decodeUtf8 b = some s ↔ b = utf8 s := by
  constructor
  · intro h
    unfold decodeUtf8 at h
    rw [Option.map_eq_some_iff] at h
    obtain ⟨a, ha, rfl⟩ := h
    have hsome : b.toByteArray.utf8Decode?.isSome := by rw [ha]; rfl
    have h1 := ByteArray.utf8Encode_get_utf8Decode? (b := b.toByteArray) (h := hsome)
    have h2 : b.toByteArray.utf8Decode?.get hsome = a := by simp [ha]
    rw [h2] at h1
    rw [← utf8_toByteArray] at h1
    have h3 := congrArg (fun x => x.data.toList) h1
    simpa using h3.symm
  · rintro rfl
    exact decodeUtf8_utf8 s

theorem path_ser {p : Path} {j : Json} (h : Path.ser p = some j) : PathValue j p := by
  unfold Path.ser at h
  rw [Option.map_eq_some_iff] at h
  obtain ⟨s, hs, rfl⟩ := h
  exact ⟨s, rfl, decodeUtf8_eq_some.mp hs⟩

theorem opt_ser {α : Type} {V : Json → α → Prop} {f : α → Option Json} (hf : ∀ a j, f a = some j → j ≠ .null ∧ V j a) {o : Option α} {j : Json}
    (h : serOption f o = some j) : OptValue V (some j) o := by
  cases o with
  | none => cases h; exact .inl ⟨.inr rfl, rfl⟩
  | some a => exact .inr ⟨j, a, rfl, (hf a j h).1, (hf a j h).2, rfl⟩

theorem kind_opt_ser {o : Option DictionaryKind} {j : Json} (h : serOption (fun k => some k.ser) o = some j) : OptValue KindValue (some j) o := by
  refine opt_ser (fun a j h => ?_) h
  cases h
  exact ⟨by simp [DictionaryKind.ser], .inl (by rw [← serdeName_kindName]; rfl)⟩

theorem path_opt_ser {o : Option Path} {j : Json} (h : serOption Path.ser o = some j) : OptValue PathValue (some j) o := by
  refine opt_ser (fun a j h => ?_) h
  have := path_ser h
  obtain ⟨s, rfl, hs⟩ := this
  exact ⟨by simp, s, rfl, hs⟩

theorem dictionary_ser {c : DictionaryConfig} {j : Json} (h : c.ser = some j) : DictionaryValue j c := by
  unfold DictionaryConfig.ser at h
  simp only [Option.bind_eq_bind, Option.pure_def, Option.bind_eq_some_iff, Option.some.injEq] at h
  obtain ⟨k, hk, p, hp, rfl⟩ := h
  exact .inl ⟨_, rfl, .inl ⟨k, by rfl, kind_opt_ser hk⟩, .inl ⟨p, by rfl, path_opt_ser hp⟩⟩

theorem user_ser {c : UserDictionaryConfig} {j : Json} (h : c.ser = some j) : UserValue j c := by
  unfold UserDictionaryConfig.ser at h
  simp only [Option.bind_eq_bind, Option.pure_def, Option.bind_eq_some_iff, Option.some.injEq] at h
  obtain ⟨p, hp, k, hk, rfl⟩ := h
  exact .inl ⟨_, rfl, .inl ⟨p, by rfl, p, rfl, path_ser hp⟩, .inl ⟨k, by rfl, kind_opt_ser hk⟩⟩

theorem penalty_ser {p : Penalty} (h1 : p.kanjiThreshold < 2 ^ 64) (h2 : p.otherThreshold < 2 ^ 64) : PenaltyValue p.ser p :=
  .inl ⟨_, rfl, .inl ⟨_, by rfl, _, rfl, h1, rfl⟩, .inl ⟨_, by rfl, _, rfl, rfl⟩, .inl ⟨_, by rfl, _, rfl, h2, rfl⟩, .inl ⟨_, by rfl, _, rfl, rfl⟩⟩

theorem ser_path_total {p : Path} {s : Str} (h : p = utf8 s) : ∃ j, Path.ser p = some j := ⟨.str s, by rw [h]; simp [Path.ser, decodeUtf8_utf8]⟩

theorem has_iff {f : Features} {k : DictionaryKind} : f.has k = true ↔ CompiledIn f k := by cases k <;> rfl

end Verif.Model
