import Verif.Proofs.Details
/-! The system dictionary compiler produces the words of the source. -/
namespace Verif.Model
open Verif.Spec

theorem normalize_eq (s : Str) : normalize s = canonical s := by
  unfold normalize replaceChar canonical
  rw [List.map_map]
  apply List.map_congr_left
  intro c _
  simp only [Function.comp_apply]
  by_cases h : c = '―'
  · subst h; decide
  · rw [if_neg h]
    have h' : ¬ c = Char.ofNat 0x2015 := h
    rw [if_neg h']

theorem blen_canonical (s : Str) : blen (canonical s) = blen s := by
  induction s with
  | nil => rfl
  | cons c cs ih =>
    show Char.utf8Size _ + blen (canonical cs) = _
    rw [ih, blen_cons]
    congr 1
    dsimp only
    split
    · rename_i h; subst h; decide
    · split
      · rename_i h; subst h; decide
      · rfl

theorem nul_canonical {s : Str} (h : '\x00' ∉ s) : '\x00' ∉ canonical s := by
  intro hm
  simp only [canonical, List.mem_map] at hm
  obtain ⟨c, hc, he⟩ := hm
  split at he
  · exact absurd he (by decide)
  · split at he
    · exact absurd he (by decide)
    · subst he; exact h hc

theorem nul_fieldText {norm : Bool} {s : Str} (h : '\x00' ∉ s) : '\x00' ∉ fieldText norm s := by
  unfold fieldText; split
  · exact nul_canonical h
  · exact h

theorem blen_fieldText (norm : Bool) (s : Str) : blen (fieldText norm s) = blen s := by
  unfold fieldText; split
  · exact blen_canonical s
  · rfl

theorem rowKey_eq (cfg : DictCfg) (row : Row) : cfg.rowKey row = fieldText cfg.normalizeDetails row.first := by
  unfold DictCfg.rowKey fieldText; rw [normalize_eq]

theorem joinedDetails_eq (cfg : DictCfg) (row : Row) :
    cfg.joinedDetails row = joinNul ((row.fields.drop 4).map (fieldText cfg.normalizeDetails)) := by
  unfold DictCfg.joinedDetails
  congr 1
  split
  · rename_i h
    apply List.map_congr_left
    intro s _
    simp [fieldText, h, normalize_eq]
  · rename_i h
    have : fieldText cfg.normalizeDetails = id := by funext s; simp [fieldText, h]
    rw [this, List.map_id]

theorem blen_joinNul (ds : List Str) : blen (joinNul ds) ≤ (ds.map fun d => blen d + 1).sum := by
  induction ds with
  | nil => simp [joinNul]
  | cons d ds ih =>
    cases ds with
    | nil => simp [joinNul]
    | cons d' ds =>
      simp only [joinNul, blen_append, blen_cons, List.map_cons, List.sum_cons] at ih ⊢
      have : Char.utf8Size '\x00' = 1 := by decide
      omega

theorem detailSize_bound (cfg : DictCfg) (row : Row) : 4 + blen (cfg.joinedDetails row) ≤ detailSize row := by
  rw [joinedDetails_eq]
  have := blen_joinNul ((row.fields.drop 4).map (fieldText cfg.normalizeDetails))
  rw [List.map_map] at this
  have h2 : ((fun d => blen d + 1) ∘ fieldText cfg.normalizeDetails) = fun d => blen d + 1 := by
    funext d; simp [blen_fieldText]
  rw [h2] at this
  unfold detailSize
  omega

/-- The entry a row is compiled to. -/
def compiled (i : Nat) (w : SourceWord) : Str × WordEntry :=
  (w.surface, ⟨⟨UInt32.ofNat i, true⟩, w.cost, w.leftId, w.rightId⟩)

theorem rowEntry_eq {cfg : DictCfg} {row : Row} (h : 4 ≤ row.fields.length) (i : Nat) :
    cfg.rowEntry i row = match readRow cfg.normalizeDetails row with
      | some w => .ok (some (compiled i w))
      | none => if cfg.skipInvalid then .ok none else .error (.err .parse) := by
  obtain ⟨a, rest⟩ := row
  match rest, h with
  | l :: r :: c :: ds, _ =>
    simp only [DictCfg.rowEntry, Row.fields, readRow, List.getElem?_cons_succ, List.getElem?_cons_zero, orPanic_some,
      bind_ok, DictCfg.parsedOr]
    cases parseI16 (trim c) with
    | none => cases parseU16 (trim l) <;> cases parseU16 (trim r) <;> rfl
    | some c =>
      cases parseU16 (trim l) with
      | none => cases parseU16 (trim r) <;> rfl
      | some l =>
        cases parseU16 (trim r) with
        | none => rfl
        | some r => simp [compiled, rowKey_eq]

/-- The keyed entries of numbered rows. -/
def keyed (norm : Bool) (xs : List (Row × Nat)) : List (Str × WordEntry) :=
  xs.filterMap fun p => (readRow norm p.1).map (compiled p.2)

theorem entryMap_fold {cfg : DictCfg} {xs : List (Row × Nat)}
    (h : ∀ p ∈ xs, 4 ≤ p.1.fields.length ∧ (cfg.skipInvalid = true ∨ (readRow cfg.normalizeDetails p.1).isSome))
    (m : EntryMap) :
    xs.foldlM (init := m) (fun m (p : Row × Nat) => (do
      let e ← cfg.rowEntry p.2 p.1
      return pushEntry m e : R EntryMap)) = .ok (pushAll m (keyed cfg.normalizeDetails xs)) := by
  induction xs generalizing m with
  | nil => rfl
  | cons p xs ih =>
    have hp := h p (by simp)
    rw [List.foldlM_cons, rowEntry_eq hp.1]
    have ih := fun m => ih (fun q hq => h q (by simp [hq])) m
    cases hr : readRow cfg.normalizeDetails p.1 with
    | none =>
      have hs : cfg.skipInvalid = true := by simpa [hr] using hp.2
      simp only [hs, if_true]
      refine (ih m).trans ?_
      simp [keyed, hr]
    | some w =>
      refine (ih (mapPush (compiled p.2 w).1 (compiled p.2 w).2 m)).trans ?_
      simp [keyed, hr, pushAll]

theorem entryMap_eq {cfg : DictCfg} {rows : List Row}
    (h : Acceptable cfg.normalizeDetails cfg.skipInvalid rows) :
    cfg.entryMap rows = .ok (pushAll [] (keyed cfg.normalizeDetails rows.zipIdx)) := by
  unfold DictCfg.entryMap
  apply entryMap_fold
  intro p hp
  exact h p.1 (List.fst_mem_of_mem_zipIdx hp)

theorem mem_keyed {norm : Bool} {xs : List (Row × Nat)} {q : Str × WordEntry} (h : q ∈ keyed norm xs) :
    ∃ p ∈ xs, ∃ w, readRow norm p.1 = some w ∧ q = compiled p.2 w := by
  simp only [keyed, List.mem_filterMap, Option.map_eq_some_iff] at h
  obtain ⟨p, hp, w, hw, rfl⟩ := h
  exact ⟨p, hp, w, hw, rfl⟩

theorem keyed_filter_forall₂ {norm : Bool} {lookup : Nat → R (Option (List Str))} {xs : List (Row × Nat)} (k : Str)
    (h : ∀ p ∈ xs, p.2 < 2 ^ 32 ∧ ∀ w, readRow norm p.1 = some w → lookup p.2 = .ok (some (shown w.details))) :
    List.Forall₂ (Describes lookup) (((keyed norm xs).filter fun p => p.1 = k).map (·.2))
      (wordsFor norm (xs.map (·.1)) k) := by
  induction xs with
  | nil => exact .nil
  | cons p xs ih =>
    have hp := h p (by simp)
    have ih := ih (fun q hq => h q (by simp [hq]))
    cases hr : readRow norm p.1 with
    | none => simpa [keyed, wordsFor, sourceWords, hr] using ih
    | some w =>
      by_cases hk : w.surface = k
      · simp only [keyed, wordsFor, sourceWords, hr, List.filterMap_cons, List.map_cons, Option.map_some,
          List.filter_cons, compiled, hk, decide_true, if_true]
        refine .cons ⟨rfl, rfl, rfl, ?_⟩ ih
        have := hp.2 w hr
        rw [← this]
        congr 1
        simp
        omega
      · simp only [keyed, wordsFor, sourceWords, hr, List.filterMap_cons, List.map_cons, Option.map_some,
          List.filter_cons, compiled, hk, decide_false]
        exact ih

theorem readRow_details {norm : Bool} {row : Row} {w : SourceWord} (h : readRow norm row = some w) :
    w.details = (row.fields.drop 4).map (fieldText norm) ∧ w.surface = fieldText norm row.first ∧
      4 ≤ row.fields.length := by
  obtain ⟨a, rest⟩ := row
  unfold readRow at h
  simp only [Row.fields] at h
  split at h
  · rename_i s l r c ds heq
    split at h
    · simp only [Option.some.injEq] at h
      subst h
      simp only [List.cons.injEq] at heq
      obtain ⟨rfl, rfl⟩ := heq
      simp [Row.fields]
    · simp at h
  · simp at h

theorem fieldText_ne_nil {norm : Bool} {s : Str} (h : s ≠ []) : fieldText norm s ≠ [] := by
  intro he
  have := blen_fieldText norm s
  rw [he] at this
  exact h (blen_eq_zero.mp this.symm)

theorem sum_le_of_mem {α : Type} {f g : α → Nat} {xs : List α} (h : ∀ x ∈ xs, f x ≤ g x) : (xs.map f).sum ≤ (xs.map g).sum := by
  induction xs with
  | nil => simp
  | cons x xs ih =>
    have h1 := h x (by simp)
    have h2 := ih (fun y hy => h y (by simp [hy]))
    simp
    omega

theorem le_sum_of_mem {α : Type} {f : α → Nat} {xs : List α} {x : α} (h : x ∈ xs) : f x ≤ (xs.map f).sum := by
  induction xs with
  | nil => simp at h
  | cons y xs ih =>
    rcases List.mem_cons.mp h with rfl | h
    · simp
    · have := ih h
      simp
      omega

theorem sum_le_of_sublist {xs ys : List Nat} (h : xs.Sublist ys) : xs.sum ≤ ys.sum := by
  induction h with
  | slnil => exact Nat.le_refl _
  | cons a _ ih => simp; omega
  | cons_cons a _ ih => simp; omega

/-- The words with one surface do not depend on the sorting. -/
theorem wordsFor_sort (cfg : DictCfg) (rows : List Row) (k : Str) :
    wordsFor cfg.normalizeDetails (sortByKey cfg.rowKey rows) k = wordsFor cfg.normalizeDetails rows k := by
  have key : ∀ rows : List Row, wordsFor cfg.normalizeDetails rows k = rows.filterMap fun r =>
      (readRow cfg.normalizeDetails r).bind fun w => if w.surface = k then some w else none := by
    intro rows
    induction rows with
    | nil => rfl
    | cons r rows ih =>
      unfold wordsFor sourceWords at ih ⊢
      cases hr : readRow cfg.normalizeDetails r with
      | none => simpa [List.filterMap_cons, hr] using ih
      | some w =>
        by_cases hk : w.surface = k
        · simp [hr, hk, ih]
        · simp [hr, hk, ih]
  rw [key, key]
  apply sortByKey_filterMap cfg.rowKey _ k
  intro r hr
  rw [Option.isSome_iff_exists] at hr
  obtain ⟨w, hw⟩ := hr
  rw [Option.bind_eq_some_iff] at hw
  obtain ⟨w', hw', h⟩ := hw
  split at h
  · rename_i hk
    rw [rowKey_eq, ← (readRow_details hw').2.1, hk]
  · simp at h

/-- The compiled files pack the map of the source words, however many words share a surface. -/
theorem buildDict_any {yada : DaBuilder} (hy : YadaContract yada) {cfg : DictCfg} {rows : List Row}
    (ha : Acceptable cfg.normalizeDetails cfg.skipInvalid rows) (hf : FitsApart cfg.normalizeDetails rows) :
    ∃ out m, buildDict yada cfg rows = .ok out ∧
      (∀ p ∈ out.da.keys, ∃ k : Str, p.1 = utf8 k) ∧
      out.da = ⟨keyset 0 m⟩ ∧ out.vals = valsBuffer m ∧ m = pushAll [] (keyed cfg.normalizeDetails (sortByKey cfg.rowKey rows).zipIdx) ∧
        (m.flatMap (·.2)).length < 2 ^ 26 ∧ (∀ p ∈ m, ∀ e ∈ p.2, e.wordId.sys = true) ∧
        (∀ k, List.Forall₂ (Describes (wordDetails out.wordsIdx out.words)) (mget m k)
          (wordsFor cfg.normalizeDetails rows k)) ∧
        out.wordsIdx.length = 4 * rows.length ∧
        ∀ i row, (sortByKey cfg.rowKey rows)[i]? = some row → wordDetails out.wordsIdx out.words i =
          .ok (some (shown ((row.fields.drop 4).map (fieldText cfg.normalizeDetails)))) := by
  have hperm := sortByKey_perm cfg.rowKey rows
  have hlen : (sortByKey cfg.rowKey rows).length = rows.length := hperm.length_eq
  have hmem : ∀ r, r ∈ sortByKey cfg.rowKey rows ↔ r ∈ rows := fun r => hperm.mem_iff
  have ha' : Acceptable cfg.normalizeDetails cfg.skipInvalid (sortByKey cfg.rowKey rows) :=
    fun r hr => ha r ((hmem r).mp hr)
  have hm := entryMap_eq ha'
  have hwf := wordsFor_sort cfg rows
  generalize hS : sortByKey cfg.rowKey rows = S at *
  -- the words files
  obtain ⟨st, hst⟩ := pushDetails_total (cfg := cfg) (rows := S) (fun r hr => by
    have h1 := detailSize_bound cfg r
    have h2 := le_sum_of_mem (f := detailSize) ((hmem r).mp hr)
    have h3 := hf.detailBytes
    omega) ([], [])
  obtain ⟨words, wordsIdx⟩ := st
  obtain ⟨W, X, hW, hX, hXl, hWl, hget⟩ := pushDetails_lookup hst
  simp only [List.nil_append] at hW hX
  subst hW hX
  have hWsz : words.length < 2 ^ 32 := by
    have h1 := sum_le_of_mem (xs := S) (fun r _ => detailSize_bound cfg r)
    have h2 : (S.map detailSize).sum = (rows.map detailSize).sum := (hperm.map _).sum_nat
    have h3 := hf.detailBytes
    omega
  have hdet : ∀ i (hi : i < S.length), wordDetails wordsIdx words i =
      .ok (some (shown ((S[i].fields.drop 4).map (fieldText cfg.normalizeDetails)))) := by
    intro i hi
    obtain ⟨A, B, xs, ys, e1, e2, e3, e4⟩ := hget i hi
    simp only [List.length_nil, Nat.zero_add] at e1
    have hA : A.length < 2 ^ 32 := by
      rw [e3] at hWsz
      simp only [List.length_append] at hWsz
      omega
    have := wordDetails_at (A := A) (B := B) (xs := xs) (ys := ys)
      (bytes := utf8 (cfg.joinedDetails S[i])) e2 hA (by rw [length_utf8]; exact e4)
    rw [length_utf8, ← e1, ← e3, joinedDetails_eq, decodeDetails_join] at this
    · exact this
    · intro d hd
      rw [List.mem_map] at hd
      obtain ⟨f, hf', rfl⟩ := hd
      exact nul_fieldText (hf.noNul S[i] ((hmem _).mp (List.getElem_mem hi)) f (List.mem_of_mem_drop hf'))
  -- the map
  have hxs : ∀ p ∈ S.zipIdx, ∃ hi : p.2 < S.length, S[p.2] = p.1 := by
    intro p hp
    have := List.mem_zipIdx hp
    simp only [Nat.zero_add, Nat.sub_zero] at this
    exact ⟨this.2.1, this.2.2.symm⟩
  have hsorted : SortedMap (pushAll [] (keyed cfg.normalizeDetails S.zipIdx)) := pushAll_sorted List.Pairwise.nil _
  have hkget : ∀ k, mget (pushAll [] (keyed cfg.normalizeDetails S.zipIdx)) k =
      ((keyed cfg.normalizeDetails S.zipIdx).filter fun p => p.1 = k).map (·.2) := by
    intro k
    rw [mget_pushAll List.Pairwise.nil]
    rfl
  have hdesc : ∀ k, List.Forall₂ (Describes (wordDetails wordsIdx words))
      (mget (pushAll [] (keyed cfg.normalizeDetails S.zipIdx)) k) (wordsFor cfg.normalizeDetails rows k) := by
    intro k
    rw [hkget, ← hwf]
    have := keyed_filter_forall₂ (norm := cfg.normalizeDetails) (lookup := wordDetails wordsIdx words)
      (xs := S.zipIdx) k (by
        intro p hp
        obtain ⟨hi, he⟩ := hxs p hp
        refine ⟨?_, ?_⟩
        · have := hf.numRows
          omega
        · intro w hw
          rw [hdet p.2 hi, he, (readRow_details hw).1])
    have hz : S.zipIdx.map (·.1) = S := List.zipIdx_map_fst 0 S
    rw [hz] at this
    exact this
  have htotal : ((pushAll [] (keyed cfg.normalizeDetails S.zipIdx)).flatMap (·.2)).length < 2 ^ 26 := by
    rw [(pushAll_values [] _).length_eq]
    simp only [List.flatMap_nil, List.nil_append, List.length_map]
    have h1 := hf.total
    have : (keyed cfg.normalizeDetails S.zipIdx).length = (sourceWords cfg.normalizeDetails S).length := by
      have : ∀ xs : List (Row × Nat), (keyed cfg.normalizeDetails xs).length =
          (sourceWords cfg.normalizeDetails (xs.map (·.1))).length := by
        intro xs
        induction xs with
        | nil => rfl
        | cons p xs ih =>
          simp only [keyed, sourceWords, List.map_cons, List.filterMap_cons] at ih ⊢
          cases readRow cfg.normalizeDetails p.1 with
          | none => simpa using ih
          | some w => simpa using ih
      rw [this, show S.zipIdx.map (·.1) = S from List.zipIdx_map_fst 0 S]
    rw [this]
    have : (sourceWords cfg.normalizeDetails S).length = (sourceWords cfg.normalizeDetails rows).length :=
      (hperm.filterMap _).length_eq
    omega
  have hsys : ∀ p ∈ pushAll [] (keyed cfg.normalizeDetails S.zipIdx), ∀ e ∈ p.2, e.wordId.sys = true := by
    rintro ⟨k, es⟩ hp e he
    have h1 := mget_of_mem hsorted hp
    rw [hkget] at h1
    dsimp only at he
    rw [← h1, List.mem_map] at he
    obtain ⟨q, hq, rfl⟩ := he
    obtain ⟨p', -, w, -, rfl⟩ := mem_keyed (List.mem_of_mem_filter hq)
    rfl
  -- keys
  have hkeys : ∀ p ∈ keyset 0 (pushAll [] (keyed cfg.normalizeDetails S.zipIdx)), ∃ q ∈ pushAll [] (keyed cfg.normalizeDetails S.zipIdx),
      p.1 = utf8 q.1 := by
    intro p hp
    have : p.1 ∈ (keyset 0 (pushAll [] (keyed cfg.normalizeDetails S.zipIdx))).map (·.1) := List.mem_map_of_mem hp
    rw [keyset_map_fst, List.mem_map] at this
    obtain ⟨q, hq, he⟩ := this
    exact ⟨q, hq, he.symm⟩
  have hval : ∀ (m : EntryMap) (id : UInt32), id.toNat + (m.flatMap (·.2)).length < 2 ^ 26 →
      ∀ q ∈ keyset id m, q.2.toNat < 2 ^ 31 := by
    intro m
    induction m with
    | nil => intro id _ q hq; simp [keyset] at hq
    | cons p m ih =>
      obtain ⟨k, es⟩ := p
      intro id hlt q hq
      simp only [List.flatMap_cons, List.length_append] at hlt
      simp only [keyset, List.mem_cons] at hq
      rcases hq with rfl | hq
      · apply packed_toNat
        · simp; omega
        · omega
      · refine ih (id + UInt32.ofNat es.length) ?_ q hq
        rw [UInt32.toNat_add]
        simp only [UInt32.toNat_ofNat']
        omega
  have hyada : yada (keyset 0 (pushAll [] (keyed cfg.normalizeDetails S.zipIdx))) =
      some ⟨keyset 0 (pushAll [] (keyed cfg.normalizeDetails S.zipIdx))⟩ := by
    apply hy
    · -- not empty
      intro he
      have hnil : pushAll [] (keyed cfg.normalizeDetails S.zipIdx) = [] := by
        have := congrArg (List.map (·.1)) he
        rw [keyset_map_fst] at this
        simpa using this
      have hne := hf.nonempty
      obtain ⟨w, hw⟩ := List.exists_mem_of_ne_nil _ hne
      have h1 := hdesc w.surface
      rw [hnil] at h1
      have h2 : w ∈ wordsFor cfg.normalizeDetails rows w.surface := by
        simp [wordsFor, hw]
      cases h3 : wordsFor cfg.normalizeDetails rows w.surface with
      | nil => rw [h3] at h2; simp at h2
      | cons x xs => rw [h3] at h1; simp only [mget] at h1; cases h1
    · -- sorted
      have h1 : ((keyset 0 (pushAll [] (keyed cfg.normalizeDetails S.zipIdx))).map (·.1)).Pairwise
          fun a b => bytesLe a b = true ∧ a ≠ b := by
        rw [keyset_map_fst, List.pairwise_map]
        refine hsorted.imp ?_
        rintro a b ⟨h1, h2⟩
        exact ⟨h1, fun e => h2 (utf8_injective e)⟩
      rw [List.pairwise_map] at h1
      exact h1
    · intro p hp
      obtain ⟨q, hq, he⟩ := hkeys p hp
      have hsurf : q.1 ≠ [] ∧ '\x00' ∉ q.1 := by
        rcases pushAll_keys _ hq with ⟨x, hx, hxe⟩ | ⟨x, hx, -⟩
        · obtain ⟨p', hp', w, hw, rfl⟩ := mem_keyed hx
          have hr : p'.1 ∈ rows := (hmem _).mp (List.fst_mem_of_mem_zipIdx hp')
          have hd := (readRow_details hw).2.1
          have e : q.1 = fieldText cfg.normalizeDetails p'.1.first := by rw [← hxe, ← hd]; rfl
          rw [e]
          exact ⟨fieldText_ne_nil (hf.surfaces _ hr), nul_fieldText (hf.noNul _ hr _ (by simp [Row.fields]))⟩
        · simp at hx
      refine ⟨?_, ?_, hval _ 0 (by simpa using htotal) p hp⟩
      · rw [he]
        intro h0
        have := congrArg List.length h0
        rw [length_utf8] at this
        exact hsurf.1 (blen_eq_zero.mp this)
      · rw [he, zero_mem_utf8]; exact hsurf.2
  have hbuild : buildDict yada cfg rows = .ok ⟨⟨keyset 0 (pushAll [] (keyed cfg.normalizeDetails S.zipIdx))⟩,
      valsBuffer (pushAll [] (keyed cfg.normalizeDetails S.zipIdx)), words, wordsIdx⟩ := by
    unfold buildDict
    simp only [hS, hm, bind_ok, hst, hyada]
  refine ⟨_, _, hbuild, ?_, rfl, rfl, rfl, htotal, hsys, hdesc, by simp only [hXl, hlen], ?_⟩
  · intro p hp
    obtain ⟨q, -, he⟩ := hkeys p hp
    exact ⟨q.1, he⟩
  · intro i row hr
    obtain ⟨hi, rfl⟩ := List.getElem?_eq_some_iff.mp hr
    exact hdet i hi

theorem fits_apart {norm : Bool} {rows : List Row} (h : Fits norm rows) : FitsApart norm rows :=
  ⟨h.total, h.numRows, h.detailBytes, h.surfaces, h.noNul, h.nonempty⟩

/-- The compiled files describe the source words. -/
theorem buildDict_spec {yada : DaBuilder} (hy : YadaContract yada) {cfg : DictCfg} {rows : List Row}
    (ha : Acceptable cfg.normalizeDetails cfg.skipInvalid rows) (hf : Fits cfg.normalizeDetails rows) :
    ∃ out, buildDict yada cfg rows = .ok out ∧
      (∀ p ∈ out.da.keys, ∃ k : Str, p.1 = utf8 k) ∧
      ∃ find : Str → List WordEntry, (∀ k, out.prefixDict.findSurface k = .ok (find k)) ∧
        (∀ k, List.Forall₂ (Describes (wordDetails out.wordsIdx out.words)) (find k)
          (wordsFor cfg.normalizeDetails rows k)) ∧
        out.wordsIdx.length = 4 * rows.length ∧
        ∀ i row, (sortByKey cfg.rowKey rows)[i]? = some row → wordDetails out.wordsIdx out.words i =
          .ok (some (shown ((row.fields.drop 4).map (fieldText cfg.normalizeDetails)))) := by
  obtain ⟨⟨da, vals, words, wordsIdx⟩, m, hb, hk, hda, hvals, hm, htotal, hsys, hdesc, hlen, hdet⟩ := buildDict_any hy ha (fits_apart hf)
  dsimp only at hda hvals
  subst hda hvals
  have hsorted : SortedMap m := hm ▸ pushAll_sorted List.Pairwise.nil _
  refine ⟨_, hb, hk, mget m, fun k => ?_, hdesc, hlen, hdet⟩
  refine findSurface_packed hsorted (by omega) ?_ hsys k
  rintro ⟨k, es⟩ hp
  have h1 := mget_of_mem hsorted hp
  have h2 := (hdesc k).length_eq
  have h3 := hf.homographs k
  rw [h1] at h2
  dsimp only
  omega

end Verif.Model
