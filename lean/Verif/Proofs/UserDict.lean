import Verif.Proofs.ManyHomographs
import Verif.Proofs.Bincode
import Verif.Spec.UserDict
/-! The user dictionary compiler produces the words of the source. -/
namespace Verif.Model
open Verif.Spec

/-- A packed map of keyed entries finds the entries pushed under each key, as far as the number of homographs can be stored. -/
theorem packed_spec {yada : DaBuilder} (hy : YadaContract yada) {kes : List (Str × WordEntry)} {sys : Bool} (hne : kes ≠ [])
    (htot : kes.length < 2 ^ 26) (hsys : ∀ p ∈ kes, p.2.wordId.sys = sys)
    (hkey : ∀ p ∈ kes, p.1 ≠ [] ∧ '\x00' ∉ p.1) :
    yada (keyset 0 (pushAll [] kes)) = some ⟨keyset 0 (pushAll [] kes)⟩ ∧
    (∀ p ∈ keyset 0 (pushAll [] kes), ∃ k : Str, p.1 = utf8 k) ∧
    ∀ k, PrefixDict.findSurface ⟨⟨keyset 0 (pushAll [] kes)⟩, valsBuffer (pushAll [] kes), sys⟩ k =
      .ok (leftOver (kes.countP fun p => strLe p.1 k && p.1 != k) ((kes.filter fun p => p.1 = k).map (·.2))) := by
  have hsorted : SortedMap (pushAll [] kes) := pushAll_sorted List.Pairwise.nil _
  have hkget : ∀ k, mget (pushAll [] kes) k = (kes.filter fun p => p.1 = k).map (·.2) := by
    intro k
    rw [mget_pushAll List.Pairwise.nil]
    rfl
  have htotal : ((pushAll [] kes).flatMap (·.2)).length < 2 ^ 26 := by
    rw [(pushAll_values [] _).length_eq]
    simpa using htot
  have hsys' : ∀ p ∈ pushAll [] kes, ∀ e ∈ p.2, e.wordId.sys = sys := by
    rintro ⟨k, es⟩ hp e he
    have h1 := mget_of_mem hsorted hp
    rw [hkget] at h1
    dsimp only at he
    rw [← h1, List.mem_map] at he
    obtain ⟨q, hq, rfl⟩ := he
    exact hsys q (List.mem_of_mem_filter hq)
  have hkeys : ∀ p ∈ keyset 0 (pushAll [] kes), ∃ q ∈ pushAll [] kes, p.1 = utf8 q.1 := by
    intro p hp
    have : p.1 ∈ (keyset 0 (pushAll [] kes)).map (·.1) := List.mem_map_of_mem hp
    rw [keyset_map_fst, List.mem_map] at this
    obtain ⟨q, hq, he⟩ := this
    exact ⟨q, hq, he.symm⟩
  have hval : ∀ (m : EntryMap) (id : UInt32), id.toNat + (m.flatMap (·.2)).length < 2 ^ 26 →
      ∀ q ∈ keyset id m, q.2.toNat < 2 ^ 31 := by
    intro m
    induction m with
    | nil => intro id _ q hq; simp [keyset] at hq
    | cons p m ih =>
      obtain ⟨k, es⟩ := p
      intro id hlt q hq
      simp only [List.flatMap_cons, List.length_append] at hlt
      simp only [keyset, List.mem_cons] at hq
      rcases hq with rfl | hq
      · apply packed_toNat
        · simp; omega
        · omega
      · refine ih (id + UInt32.ofNat es.length) ?_ q hq
        rw [UInt32.toNat_add]
        simp only [UInt32.toNat_ofNat']
        omega
  refine ⟨?_, ?_, ?_⟩
  · apply hy
    · intro he
      have hnil : pushAll [] kes = [] := by
        have := congrArg (List.map (·.1)) he
        rw [keyset_map_fst] at this
        simpa using this
      obtain ⟨p, hp⟩ := List.exists_mem_of_ne_nil _ hne
      have h1 := hkget p.1
      rw [hnil] at h1
      have h2 : p.2 ∈ (kes.filter fun q => q.1 = p.1).map (·.2) :=
        List.mem_map_of_mem (List.mem_filter.mpr ⟨hp, by simp⟩)
      rw [← h1] at h2
      simp [mget] at h2
    · have h1 : ((keyset 0 (pushAll [] kes)).map (·.1)).Pairwise fun a b => bytesLe a b = true ∧ a ≠ b := by
        rw [keyset_map_fst, List.pairwise_map]
        refine hsorted.imp ?_
        rintro a b ⟨h1, h2⟩
        exact ⟨h1, fun e => h2 (utf8_injective e)⟩
      rw [List.pairwise_map] at h1
      exact h1
    · intro p hp
      obtain ⟨q, hq, he⟩ := hkeys p hp
      have hsurf : q.1 ≠ [] ∧ '\x00' ∉ q.1 := by
        rcases pushAll_keys _ hq with ⟨x, hx, hxe⟩ | ⟨x, hx, -⟩
        · rw [← hxe]; exact hkey x hx
        · simp at hx
      refine ⟨?_, ?_, hval _ 0 (by simpa using htotal) p hp⟩
      · rw [he]
        intro h0
        have := congrArg List.length h0
        rw [length_utf8] at this
        exact hsurf.1 (blen_eq_zero.mp this)
      · rw [he, zero_mem_utf8]; exact hsurf.2
  · intro p hp
    obtain ⟨q, -, he⟩ := hkeys p hp
    exact ⟨q.1, he⟩
  · intro k
    rw [findSurface_window hsorted htotal hsys' k, hkget, keysBefore_eq, (pushAll_pairs [] _).countP_eq]
    simp

/-- What the two loops do with a readable row. -/
theorem readUserRow_spec {kind : DictionaryKind} {row : Row} {w : SourceWord} (h : readUserRow kind row = some w) :
    (UserCfg.ofKind kind).numbers row = .ok (w.cost, w.leftId, w.rightId) ∧ (UserCfg.ofKind kind).rowDetails row = .ok w.details ∧
      w.surface = row.first := by
  obtain ⟨a, rest⟩ := row
  match rest, h with
  | [], h => simp [readUserRow, Row.fields] at h
  | [_], h => simp [readUserRow, Row.fields] at h
  | [pos, reading], h =>
    simp only [readUserRow, Row.fields, Option.some.injEq] at h
    subst h
    refine ⟨rfl, ?_, rfl⟩
    cases kind <;> rfl
  | left :: right :: cost :: details, h =>
    simp only [readUserRow, Row.fields] at h
    split at h
    · rename_i hd
      have hn : (Row.fields ⟨a, left :: right :: cost :: details⟩).length ≠ (UserCfg.ofKind kind).simpleFields := by
        simp [Row.fields, UserCfg.ofKind]
      have hd' : (Row.fields ⟨a, left :: right :: cost :: details⟩).length ≥ (UserCfg.ofKind kind).detailedFields := by
        simp only [Row.fields, List.length_cons]
        cases kind <;> simp only [detailedColumns] at hd <;> simp only [UserCfg.ofKind] <;> omega
      split at h
      · rename_i l r c h1 h2 h3
        simp only [Option.some.injEq] at h
        subst h
        refine ⟨?_, ?_, rfl⟩
        · unfold UserCfg.numbers
          rw [if_neg hn]
          simp [Row.fields, h1, h2, h3, orParse]
        · unfold UserCfg.rowDetails
          rw [if_neg hn, if_pos hd']
          rfl
      · simp at h
    · simp at h

/-- The entry of a word. -/
def userEntry (i : Nat) (w : SourceWord) : Str × WordEntry := (w.surface, ⟨⟨UInt32.ofNat i, false⟩, w.cost, w.leftId, w.rightId⟩)

/-- The keyed entries of numbered rows. -/
def userKeyed (kind : DictionaryKind) (xs : List (Row × Nat)) : List (Str × WordEntry) :=
  xs.filterMap fun p => (readUserRow kind p.1).map (userEntry p.2)

theorem userEntryMap_fold {kind : DictionaryKind} {xs : List (Row × Nat)} (h : ∀ p ∈ xs, (readUserRow kind p.1).isSome) (m : EntryMap) :
    xs.foldlM (init := m) (fun m (p : Row × Nat) => (do
      let (cost, left, right) ← (UserCfg.ofKind kind).numbers p.1
      return mapPush p.1.first ⟨⟨UInt32.ofNat p.2, false⟩, cost, left, right⟩ m : R EntryMap)) =
      .ok (pushAll m (userKeyed kind xs)) := by
  induction xs generalizing m with
  | nil => rfl
  | cons p xs ih =>
    obtain ⟨w, hw⟩ := Option.isSome_iff_exists.mp (h p (by simp))
    obtain ⟨h1, -, h3⟩ := readUserRow_spec hw
    rw [List.foldlM_cons, h1]
    refine (ih (fun q hq => h q (by simp [hq])) _).trans ?_
    simp [userKeyed, hw, pushAll, userEntry, h3]

theorem userDetails_fold {cfg : UserCfg} {d : Row → List Str} {rows : List Row} (h : ∀ r ∈ rows, cfg.rowDetails r = .ok (d r))
    (st : List UInt8 × List UInt8) :
    ∃ W X, rows.foldlM cfg.pushDetails st = .ok (st.1 ++ W, st.2 ++ X) ∧ X.length = 4 * rows.length ∧
      W = rows.flatMap (fun r => (Codec.vec Codec.string).enc (d r)) ∧
      ∀ i r, rows[i]? = some r → ∃ (A B xs ys : List UInt8),
        X = xs ++ leU32 (UInt32.ofNat (st.1.length + A.length)) ++ ys ∧ xs.length = 4 * i ∧
        W = A ++ (Codec.vec Codec.string).enc (d r) ++ B := by
  induction rows generalizing st with
  | nil => exact ⟨[], [], by simp, by simp, by simp, by simp⟩
  | cons r rows ih =>
    have h0 := h r (by simp)
    have hstep : cfg.pushDetails st r =
        .ok (st.1 ++ (Codec.vec Codec.string).enc (d r), st.2 ++ leU32 (UInt32.ofNat st.1.length)) := by
      unfold UserCfg.pushDetails
      rw [h0]
      rfl
    obtain ⟨W, X, h1, h2, h3, h4⟩ := ih (fun q hq => h q (by simp [hq]))
      (st.1 ++ (Codec.vec Codec.string).enc (d r), st.2 ++ leU32 (UInt32.ofNat st.1.length))
    refine ⟨(Codec.vec Codec.string).enc (d r) ++ W, leU32 (UInt32.ofNat st.1.length) ++ X, ?_, by simp [h2]; omega, by simp [h3], ?_⟩
    · rw [List.foldlM_cons, hstep, bind_ok, h1]
      simp
    · intro i r' hr
      cases i with
      | zero =>
        simp only [List.getElem?_cons_zero, Option.some.injEq] at hr
        subst hr
        exact ⟨[], W, [], X, by simp, by simp, by simp⟩
      | succ i =>
        rw [List.getElem?_cons_succ] at hr
        obtain ⟨A, B, xs, ys, e1, e2, e3⟩ := h4 i r' hr
        refine ⟨(Codec.vec Codec.string).enc (d r) ++ A, B, leU32 (UInt32.ofNat st.1.length) ++ xs, ys, ?_, by simp [e2]; omega, ?_⟩
        · rw [e1]
          simp only [List.length_append, List.append_assoc, Nat.add_assoc]
        · rw [e3]
          simp [List.append_assoc]

theorem leNat_length (k n : Nat) : (leNat k n).length = k := by
  induction k generalizing n with
  | zero => rfl
  | succ k ih => simp [leNat, ih]

theorem flatMap_u8 (bs : List UInt8) : bs.flatMap Codec.u8.enc = bs := by
  induction bs with
  | nil => rfl
  | cons b bs ih =>
    rw [List.flatMap_cons, ih]
    simp [Codec.u8, Codec.via, Codec.uint, leNat]

/-- Number of bytes of stored details. -/
theorem details_length (ds : List Str) : ((Codec.vec Codec.string).enc ds).length = 8 + (ds.map fun d => 8 + blen d).sum := by
  simp only [Codec.vec, Codec.string, Codec.via, List.length_append, leNat_length, flatMap_u8]
  congr 1
  induction ds with
  | nil => rfl
  | cons d ds ih => simp [leNat_length, length_utf8]; omega

theorem details_good (ds : List Str) (h : ((Codec.vec Codec.string).enc ds).length < 2 ^ 32) (r : List UInt8) :
    (Codec.vec Codec.string).dec ((Codec.vec Codec.string).enc ds ++ r) = some (ds, r) := by
  apply Codec.good_string.vec.roundtrip
  rw [details_length] at h
  have h1 : ds.length ≤ (ds.map fun d => 8 + blen d).sum := by
    clear h
    induction ds with
    | nil => simp
    | cons d ds ih => simp; omega
  refine ⟨by omega, ?_⟩
  intro d hd
  have := le_sum_of_mem (f := fun d => 8 + blen d) hd
  omega

theorem userKeyed_filter {kind : DictionaryKind} {lookup : Nat → R (Option (List Str))} {xs : List (Row × Nat)} (k : Str)
    (h : ∀ p ∈ xs, p.2 < 2 ^ 32 ∧ ∀ w, readUserRow kind p.1 = some w → lookup p.2 = .ok (some w.details)) :
    List.Forall₂ (UserDescribes lookup) (((userKeyed kind xs).filter fun p => p.1 = k).map (·.2)) (userWordsFor kind (xs.map (·.1)) k) := by
  induction xs with
  | nil => exact .nil
  | cons p xs ih =>
    have hp := h p (by simp)
    have ih := ih (fun q hq => h q (by simp [hq]))
    cases hr : readUserRow kind p.1 with
    | none => simpa [userKeyed, userWordsFor, hr] using ih
    | some w =>
      by_cases hk : w.surface = k
      · simp only [userKeyed, userWordsFor, hr, List.filterMap_cons, List.map_cons, Option.map_some,
          List.filter_cons, userEntry, hk, decide_true, if_true]
        refine .cons ⟨rfl, rfl, rfl, rfl, ?_⟩ ih
        have := hp.2 w hr
        rw [← this]
        congr 1
        simp
        omega
      · simp only [userKeyed, userWordsFor, hr, List.filterMap_cons, List.map_cons, Option.map_some,
          List.filter_cons, userEntry, hk, decide_false]
        exact ih

/-- The words with one surface do not depend on the sorting. -/
theorem userWordsFor_sort (kind : DictionaryKind) (rows : List Row) (k : Str) :
    userWordsFor kind (sortByKey Row.first rows) k = userWordsFor kind rows k := by
  have key : ∀ rows : List Row, userWordsFor kind rows k = rows.filterMap fun r =>
      (readUserRow kind r).bind fun w => if w.surface = k then some w else none := by
    intro rows
    induction rows with
    | nil => rfl
    | cons r rows ih =>
      unfold userWordsFor at ih ⊢
      cases hr : readUserRow kind r with
      | none => simpa [List.filterMap_cons, hr] using ih
      | some w =>
        by_cases hk : w.surface = k
        · simp [hr, hk, ih]
        · simp [hr, hk, ih]
  rw [key, key]
  apply sortByKey_filterMap Row.first _ k
  intro r hr
  rw [Option.isSome_iff_exists] at hr
  obtain ⟨w, hw⟩ := hr
  rw [Option.bind_eq_some_iff] at hw
  obtain ⟨w', hw', h⟩ := hw
  split at h
  · rename_i hk
    rw [← (readUserRow_spec hw').2.2, hk]
  · simp at h

theorem readRows_same {kind : DictionaryKind} {rows : List Row} (h : SameColumns kind rows) :
    (UserCfg.ofKind kind).readRows rows = .ok rows := by
  unfold UserCfg.readRows
  split
  · rfl
  · rename_i r rs
    rw [if_pos]
    rcases h with rfl | rfl | h
    · rfl
    · rfl
    · rw [Bool.or_eq_true]
      right
      rw [List.all_eq_true]
      intro r' hr'
      rw [beq_iff_eq]
      exact h _ (by simp [hr']) _ (by simp)

/-- The compiled user dictionary describes the source words, as far as the number of homographs can be stored. -/
theorem buildUserDict_any {yada : DaBuilder} (hy : YadaContract yada) {kind : DictionaryKind} {rows : List Row}
    (hc : SameColumns kind rows) (ha : ∀ row ∈ rows, (readUserRow kind row).isSome) (hf : UserFitsApart kind rows) :
    ∃ u, buildUserDict yada (UserCfg.ofKind kind) rows = .ok u ∧
      (∀ p ∈ u.dict.da.keys, ∃ k : Str, p.1 = utf8 k) ∧
      (∃ find : Str → List WordEntry, (∀ k, u.dict.findSurface k = .ok (find k)) ∧
        ∀ k, List.Forall₂ (UserDescribes u.wordDetails) (find k) (leftOver (userWordsBefore kind rows k) (userWordsFor kind rows k))) ∧
      u.wordsIdxData.length = 4 * rows.length ∧
      ∀ i row w, (sortByKey Row.first rows)[i]? = some row → readUserRow kind row = some w → u.wordDetails i = .ok (some w.details) := by
  have hperm := sortByKey_perm Row.first rows
  have hlen : (sortByKey Row.first rows).length = rows.length := hperm.length_eq
  have hmem : ∀ r, r ∈ sortByKey Row.first rows ↔ r ∈ rows := fun r => hperm.mem_iff
  have hwf := userWordsFor_sort kind rows
  generalize hS : sortByKey Row.first rows = S at *
  let d : Row → List Str := fun r => match readUserRow kind r with
    | some w => w.details
    | none => []
  have hd : ∀ r w, readUserRow kind r = some w → d r = w.details := by
    intro r w h
    show (match readUserRow kind r with | some w => w.details | none => []) = _
    rw [h]
  obtain ⟨W, X, hfold, hXl, hWe, hget⟩ := userDetails_fold (cfg := UserCfg.ofKind kind) (d := d) (rows := S) (by
    intro r hr
    obtain ⟨w, hw⟩ := Option.isSome_iff_exists.mp (ha r ((hmem r).mp hr))
    rw [(readUserRow_spec hw).2.1, hd r w hw]) ([], [])
  simp only [List.nil_append, List.length_nil, Nat.zero_add] at hfold hget
  have hWl : W.length < 2 ^ 32 := by
    have h1 : W.length = ((S.filterMap (readUserRow kind)).map storedSize).sum := by
      rw [hWe]
      have ha' : ∀ r ∈ S, (readUserRow kind r).isSome := fun r hr => ha r ((hmem r).mp hr)
      clear * - ha' hd
      induction S with
      | nil => rfl
      | cons r S ih =>
        obtain ⟨w, hw⟩ := Option.isSome_iff_exists.mp (ha' r (by simp))
        rw [List.flatMap_cons, List.length_append, ih (fun q hq => ha' q (by simp [hq])), details_length, hd r w hw]
        simp [hw, storedSize]
    have h2 : ((S.filterMap (readUserRow kind)).map storedSize).sum = ((rows.filterMap (readUserRow kind)).map storedSize).sum :=
      ((hperm.filterMap _).map _).sum_nat
    have := hf.detailBytes
    omega
  let u : EntryMap → UserDictionary := fun m => ⟨⟨⟨keyset 0 m⟩, valsBuffer m, false⟩, X, W⟩
  have hdet : ∀ m i row w, S[i]? = some row → readUserRow kind row = some w → (u m).wordDetails i = .ok (some w.details) := by
    intro m i row w hi hw
    obtain ⟨A, B, xs, ys, e1, e2, e3⟩ := hget i row hi
    have hA : A.length < 2 ^ 32 := by
      rw [e3] at hWl
      simp only [List.length_append] at hWl
      omega
    have hE : ((Codec.vec Codec.string).enc (d row)).length < 2 ^ 32 := by
      rw [e3] at hWl
      simp only [List.length_append] at hWl
      omega
    have hlA : (UInt32.ofNat A.length).toNat = A.length := by simp; omega
    show UserDictionary.wordDetails ⟨_, X, W⟩ i = _
    unfold UserDictionary.wordDetails
    dsimp only
    rw [if_neg (by rw [e1]; simp; omega)]
    have s1 : byteSlice X (4 * i) (4 * i + 4) = some (leU32 (UInt32.ofNat A.length)) := by
      unfold byteSlice
      rw [e1, if_pos ⟨by omega, by simp; omega⟩, ← e2, List.append_assoc, List.drop_left,
        show xs.length + 4 - xs.length = (leU32 (UInt32.ofNat A.length)).length by simp, List.take_left]
    have s2 : byteDrop W A.length = some ((Codec.vec Codec.string).enc (d row) ++ B) := by
      unfold byteDrop
      rw [e3, if_pos (by simp), List.append_assoc, List.drop_left]
    rw [s1, orPanic_some, bind_ok, readU32_leU32', orPanic_some, bind_ok, hlA, s2, orPanic_some, bind_ok, details_good _ hE,
      hd row w hw]
    rfl
  have hxs : ∀ p ∈ S.zipIdx, S[p.2]? = some p.1 := by
    intro p hp
    exact List.mem_zipIdx_iff_getElem?.mp hp
  have hz : S.zipIdx.map (·.1) = S := List.zipIdx_map_fst 0 S
  have hm : (UserCfg.ofKind kind).entryMap S = .ok (pushAll [] (userKeyed kind S.zipIdx)) := by
    unfold UserCfg.entryMap
    apply userEntryMap_fold
    intro p hp
    exact ha p.1 ((hmem _).mp (List.fst_mem_of_mem_zipIdx hp))
  have hdesc : ∀ m k, List.Forall₂ (UserDescribes (u m).wordDetails) (((userKeyed kind S.zipIdx).filter fun p => p.1 = k).map (·.2))
      (userWordsFor kind rows k) := by
    intro m k
    have := userKeyed_filter (kind := kind) (lookup := (u m).wordDetails) (xs := S.zipIdx) k (by
      intro p hp
      have h1 := hxs p hp
      obtain ⟨hi, -⟩ := List.getElem?_eq_some_iff.mp h1
      refine ⟨?_, fun w hw => hdet m p.2 p.1 w h1 hw⟩
      have := hf.numRows
      omega)
    rw [hz, hwf] at this
    exact this
  have hklen : (userKeyed kind S.zipIdx).length ≤ rows.length := by
    have := List.length_filterMap_le (fun p : Row × Nat => (readUserRow kind p.1).map (userEntry p.2)) S.zipIdx
    rw [List.length_zipIdx, hlen] at this
    exact this
  have hkmem : ∀ q ∈ userKeyed kind S.zipIdx, ∃ p ∈ S.zipIdx, ∃ w, readUserRow kind p.1 = some w ∧ q = userEntry p.2 w := by
    intro q hq
    simp only [userKeyed, List.mem_filterMap, Option.map_eq_some_iff] at hq
    obtain ⟨p, hp, w, hw, rfl⟩ := hq
    exact ⟨p, hp, w, hw, rfl⟩
  obtain ⟨hyada, hkeys, hfind⟩ := packed_spec hy (kes := userKeyed kind S.zipIdx) (sys := false) (by
      obtain ⟨r, hr⟩ := List.exists_mem_of_ne_nil _ hf.nonempty
      obtain ⟨w, hw⟩ := Option.isSome_iff_exists.mp (ha r hr)
      intro he
      have h1 := hdesc [] w.surface
      rw [he] at h1
      have h2 : w ∈ userWordsFor kind rows w.surface := by
        simp only [userWordsFor, List.mem_filter, List.mem_filterMap, decide_true, and_true]
        exact ⟨r, hr, hw⟩
      cases h3 : userWordsFor kind rows w.surface with
      | nil => rw [h3] at h2; simp at h2
      | cons x xs => rw [h3] at h1; cases h1)
    (by have := hf.numRows; omega)
    (by
      intro q hq
      obtain ⟨p, -, w, -, rfl⟩ := hkmem q hq
      rfl)
    (by
      intro q hq
      obtain ⟨p, hp, w, hw, rfl⟩ := hkmem q hq
      have : (userEntry p.2 w).1 = p.1.first := (readUserRow_spec hw).2.2
      rw [this]
      exact hf.surfaces _ ((hmem _).mp (List.fst_mem_of_mem_zipIdx hp)))
  have hbefore : ∀ k, ((userKeyed kind S.zipIdx).countP fun p => strLe p.1 k && p.1 != k) = userWordsBefore kind rows k := by
    intro k
    unfold userWordsBefore
    rw [← (hperm.filterMap (readUserRow kind)).countP_eq, show S.filterMap (readUserRow kind) = (S.zipIdx.map (·.1)).filterMap (readUserRow kind) by rw [hz]]
    generalize S.zipIdx = xs
    induction xs with
    | nil => rfl
    | cons p xs ih =>
      simp only [userKeyed, List.map_cons, List.filterMap_cons] at ih ⊢
      cases readUserRow kind p.1 with
      | none => simpa using ih
      | some w => simp [List.countP_cons, ih, userEntry]
  refine ⟨u (pushAll [] (userKeyed kind S.zipIdx)), ?_, hkeys, ⟨_, hfind, fun k => by rw [hbefore]; exact forall₂_leftOver (hdesc _ k) _⟩, by rw [← hlen]; exact hXl, hdet _⟩
  unfold buildUserDict
  rw [readRows_same hc, bind_ok]
  simp only [hS, hm, bind_ok, hfold, hyada, u]

/-- The compiled user dictionary describes the source words. -/
theorem buildUserDict_spec {yada : DaBuilder} (hy : YadaContract yada) {kind : DictionaryKind} {rows : List Row}
    (hc : SameColumns kind rows) (ha : ∀ row ∈ rows, (readUserRow kind row).isSome) (hf : UserFits kind rows) :
    ∃ u, buildUserDict yada (UserCfg.ofKind kind) rows = .ok u ∧
      (∀ p ∈ u.dict.da.keys, ∃ k : Str, p.1 = utf8 k) ∧
      (∃ find : Str → List WordEntry, (∀ k, u.dict.findSurface k = .ok (find k)) ∧
        ∀ k, List.Forall₂ (UserDescribes u.wordDetails) (find k) (userWordsFor kind rows k)) ∧
      u.wordsIdxData.length = 4 * rows.length ∧
      ∀ i row w, (sortByKey Row.first rows)[i]? = some row → readUserRow kind row = some w → u.wordDetails i = .ok (some w.details) := by
  obtain ⟨u, h1, h2, ⟨find, h3, h4⟩, h5, h6⟩ := buildUserDict_any hy hc ha ⟨hf.nonempty, hf.numRows, hf.surfaces, hf.detailBytes⟩
  refine ⟨u, h1, h2, ⟨find, h3, fun k => ?_⟩, h5, h6⟩
  have := h4 k
  rwa [leftOver_small _ (hf.homographs k)] at this

end Verif.Model
