import Verif.Proofs.CharFilter
import Verif.Proofs.LatticeWords
import Verif.Proofs.NoPanic
import Verif.Proofs.Sort
import Verif.Proofs.Details
import Verif.Spec.Builder
/-! Consequences of the offset tables; the mapping, normalization and regular expression filters. -/
namespace Verif.Model
open Verif.Spec

/-! ### What a right table gives -/

theorem TableOf.correct {ps : List Piece} {t : OffsetTable} (h : TableOf ps t) (o : Nat) :
    t.correct o (blen (target ps)) = .ok (asUsize (locate ps o)) := by
  rw [OffsetTable.correct_spec h.wf h.le, h.loc]

theorem locate_eq_sourceOffset {ps : List Piece} (h : ∀ p ∈ ps, p.src ≠ []) (o : Nat) : locate ps o = sourceOffset ps o := by
  induction ps generalizing o with
  | nil => rfl
  | cons p ps ih =>
    have hp := blen_pos (h p (by simp))
    rw [locate, sourceOffset, ih (fun q hq => h q (by simp [hq]))]
    split <;> omega

theorem TableOf.correct_sourceOffset {ps : List Piece} {t : OffsetTable} (h : TableOf ps t) (hs : ∀ p ∈ ps, p.src ≠ []) (o : Nat) :
    t.correct o (blen (target ps)) = .ok (sourceOffset ps o) := by
  rw [h.correct, locate_eq_sourceOffset hs, asUsize_nat]

theorem locate_zero {ps : List Piece} (h : ∀ p, ps.head? = some p → p.dst ≠ [] ∧ p.src ≠ []) : locate ps 0 = 0 := by
  cases ps with
  | nil => rfl
  | cons p ps =>
    obtain ⟨h1, h2⟩ := h p rfl
    have := blen_pos h1
    have := blen_pos h2
    rw [locate, if_pos (by omega)]
    omega

/-- Boundaries before a piece that is neither a deletion nor an insertion are mapped right. -/
theorem TableOf.correct_boundary' {ps : List Piece} {t : OffsetTable} (h : TableOf ps t) {pre post : List Piece} (hps : ps = pre ++ post)
    (hh : ∀ p, post.head? = some p → p.dst ≠ [] ∧ p.src ≠ []) :
    t.correct (blen (target pre)) (blen (target ps)) = .ok (blen (source pre)) := by
  rw [h.correct, hps, locate_append, if_neg (by omega), Nat.sub_self, locate_zero hh, Int.add_zero, asUsize_nat]

theorem TableOf.correct_boundary {ps : List Piece} {t : OffsetTable} (h : TableOf ps t) (hs : ∀ p ∈ ps, p.src ≠ []) {o i : Nat}
    (hb : Boundary ps o i) : t.correct o (blen (target ps)) = .ok i := by
  obtain ⟨pre, post, hps, rfl, rfl, hh⟩ := hb
  refine h.correct_boundary' hps ?_
  intro p hp
  refine ⟨hh p hp, hs p ?_⟩
  rw [hps, List.mem_append]; exact .inr (List.mem_of_mem_head? hp)

theorem sourceOffset_mono {ps : List Piece} (hs : ∀ p ∈ ps, p.src ≠ []) {a b : Nat} (hab : a ≤ b) :
    sourceOffset ps a ≤ sourceOffset ps b := by
  induction ps generalizing a b with
  | nil => exact hab
  | cons p ps ih =>
    have hp := blen_pos (hs p (by simp))
    simp only [sourceOffset]
    by_cases ha : a < blen p.dst
    · rw [if_pos ha]
      by_cases hb : b < blen p.dst
      · rw [if_pos hb]; omega
      · rw [if_neg hb]; omega
    · rw [if_neg ha, if_neg (by omega)]
      have := ih (fun q hq => hs q (by simp [hq])) (a := a - blen p.dst) (b := b - blen p.dst) (by omega)
      omega

theorem sourceOffset_le {ps : List Piece} {o : Nat} (ho : o ≤ blen (target ps)) : sourceOffset ps o ≤ blen (source ps) := by
  induction ps generalizing o with
  | nil => simpa [sourceOffset, target, source] using ho
  | cons p ps ih =>
    rw [blen_target_cons] at ho
    rw [blen_source_cons, sourceOffset]
    split
    · omega
    · have := ih (o := o - blen p.dst) (by omega); omega

/-! ### Mapping filter -/

theorem insertSorted_sorted {α : Type} (key : α → Str) (x : α) (ys : List α)
    (h : ys.Pairwise fun a b => strLe (key a) (key b) = true) :
    (insertSorted key x ys).Pairwise fun a b => strLe (key a) (key b) = true := by
  induction ys with
  | nil => simp [insertSorted]
  | cons y ys ih =>
    rw [List.pairwise_cons] at h
    rw [insertSorted]
    split
    · rename_i hxy
      rw [List.pairwise_cons, List.pairwise_cons]
      refine ⟨?_, h⟩
      intro z hz
      rcases List.mem_cons.mp hz with rfl | hz
      · exact hxy
      · exact strLe_trans hxy (h.1 z hz)
    · rename_i hxy
      rw [List.pairwise_cons]
      refine ⟨?_, ih h.2⟩
      intro z hz
      rcases List.mem_cons.mp ((insertSorted_perm key x ys).mem_iff.mp hz) with rfl | hz
      · exact (strLe_total _ _).resolve_left hxy
      · exact h.1 z hz

theorem sortByKey_sorted {α : Type} (key : α → Str) (xs : List α) :
    (sortByKey key xs).Pairwise fun a b => strLe (key a) (key b) = true := by
  induction xs with
  | nil => exact List.Pairwise.nil
  | cons x xs ih => exact insertSorted_sorted key x _ ih

theorem StrMap.get_eq_some {m : StrMap} (hd : (m.map (·.1)).Nodup) {k v : Str} : m.get k = some v ↔ (k, v) ∈ m := by
  unfold StrMap.get
  induction m with
  | nil => simp
  | cons p m ih =>
    obtain ⟨k', v'⟩ := p
    rw [List.map_cons, List.nodup_cons] at hd
    rw [List.find?_cons]
    by_cases hk : k' = k
    · subst hk
      simp only [beq_self_eq_true, Option.map_some, Option.some.injEq, List.mem_cons, Prod.mk.injEq, true_and]
      constructor
      · rintro rfl; exact .inl rfl
      · rintro (rfl | h)
        · rfl
        · exact absurd (List.mem_map_of_mem (f := (·.1)) h) hd.1
    · have : (k' == k) = false := by simpa using hk
      simp only [this]
      rw [ih hd.2]
      constructor
      · intro h; exact List.mem_cons_of_mem _ h
      · intro h
        rcases List.mem_cons.mp h with h | h
        · simp only [Prod.mk.injEq] at h; exact absurd h.1.symm hk
        · exact h

theorem keyset_bytes (m : StrMap) : ((Mapping.keyset m).map (·.1)) = (sortByKey id (m.map (·.1))).map utf8 := by
  unfold Mapping.keyset
  generalize sortByKey id (m.map (·.1)) = ks
  rw [List.map_map]
  rw [show ((fun x : List UInt8 × UInt32 => x.1) ∘ fun (x : Str × Nat) => (utf8 x.1, UInt32.ofNat x.2)) = utf8 ∘ Prod.fst from rfl,
    ← List.map_map, List.zipIdx_map_fst]

theorem Mapping.new_ok {yada : DaBuilder} (hy : YadaContract yada) {m : StrMap} (hm : MappingOk m) :
    Mapping.new yada m = .ok ⟨m, ⟨Mapping.keyset m⟩⟩ := by
  have hperm := sortByKey_perm (id : Str → Str) (m.map (·.1))
  have hnodup : (sortByKey id (m.map (·.1))).Nodup := hperm.nodup_iff.mpr hm.distinct
  have h : yada (Mapping.keyset m) = some ⟨Mapping.keyset m⟩ := by
    refine hy _ ?_ ?_ ?_
    · intro h
      have := congrArg List.length h
      simp only [Mapping.keyset, List.length_map, List.length_zipIdx, hperm.length_eq, List.length_nil] at this
      exact hm.nonempty (List.length_eq_zero_iff.mp this)
    · rw [← List.pairwise_map (f := fun p : List UInt8 × UInt32 => p.1) (R := fun a b => bytesLe a b = true ∧ a ≠ b), keyset_bytes,
        List.pairwise_map]
      have h1 := sortByKey_sorted (id : Str → Str) (m.map (·.1))
      refine (h1.and hnodup).imp ?_
      rintro a b ⟨h2, h3⟩
      exact ⟨h2, fun he => h3 (utf8_injective he)⟩
    · intro p hp
      unfold Mapping.keyset at hp
      rw [List.mem_map] at hp
      obtain ⟨⟨k, i⟩, hki, rfl⟩ := hp
      dsimp only
      obtain ⟨_, hi, hk⟩ := List.mem_zipIdx hki
      rw [hperm.length_eq, List.length_map] at hi
      have hmem : k ∈ m.map (·.1) := by
        rw [← hperm.mem_iff]; rw [hk]; exact List.getElem_mem _
      rw [List.mem_map] at hmem
      obtain ⟨⟨k', v⟩, hkv, hkk⟩ := hmem
      dsimp only at hkk
      subst hkk
      obtain ⟨hne, hnul⟩ := hm.keys _ _ hkv
      refine ⟨fun h => hne (utf8_injective h), fun h => hnul (zero_mem_utf8.mp h), ?_⟩
      have := hm.size
      rw [UInt32.toNat_ofNat_of_lt' (by simp [UInt32.size]; omega)]
      omega
  unfold Mapping.new
  rw [h]

theorem exactMatch_keyset_isSome {m : StrMap} {bs : List UInt8} :
    ((DoubleArray.mk (Mapping.keyset m)).exactMatch bs).isSome ↔ ∃ k v, (k, v) ∈ m ∧ bs = utf8 k := by
  unfold DoubleArray.exactMatch
  rw [Option.isSome_map, List.find?_isSome]
  have hperm := sortByKey_perm (id : Str → Str) (m.map (·.1))
  constructor
  · rintro ⟨p, hp, he⟩
    have h1 : p.1 ∈ (Mapping.keyset m).map (·.1) := List.mem_map_of_mem hp
    rw [keyset_bytes, List.mem_map] at h1
    obtain ⟨k, hk, hkp⟩ := h1
    rw [hperm.mem_iff, List.mem_map] at hk
    obtain ⟨⟨k', v⟩, hkv, rfl⟩ := hk
    exact ⟨k', v, hkv, by rw [hkp]; exact (by simpa using he : p.1 = bs).symm⟩
  · rintro ⟨k, v, hkv, rfl⟩
    have h1 : utf8 k ∈ (Mapping.keyset m).map (·.1) := by
      rw [keyset_bytes, List.mem_map]
      exact ⟨k, hperm.mem_iff.mpr (List.mem_map_of_mem (f := (·.1)) hkv), rfl⟩
    rw [List.mem_map] at h1
    obtain ⟨p, hp, he⟩ := h1
    exact ⟨p, hp, by simpa using he⟩

theorem commonPrefixSearch_increasing (da : DoubleArray) (s : List UInt8) :
    (da.commonPrefixSearch s).Pairwise fun a b => a.2 < b.2 := by
  unfold DoubleArray.commonPrefixSearch
  rw [List.pairwise_filterMap]
  refine List.pairwise_lt_range.imp ?_
  intro i j hij a ha b hb
  rw [Option.map_eq_some_iff] at ha hb
  obtain ⟨_, _, rfl⟩ := ha
  obtain ⟨_, _, rfl⟩ := hb
  simpa using hij

theorem getLast?_max {α : Type} {f : α → Nat} {xs : List α} (h : xs.Pairwise fun a b => f a < f b) {x : α}
    (hx : xs.getLast? = some x) : ∀ y ∈ xs, f y ≤ f x := by
  rcases List.eq_nil_or_concat xs with rfl | ⟨a, z, rfl⟩
  · simp at hx
  · rw [List.concat_eq_append] at *
    rw [List.getLast?_append_cons, List.getLast?_singleton, Option.some.injEq] at hx
    subst hx
    intro y hy
    rw [List.pairwise_append] at h
    rw [List.mem_append, List.mem_singleton] at hy
    rcases hy with hy | rfl
    · exact Nat.le_of_lt (h.2.2 y hy z (by simp))
    · exact Nat.le_refl _

theorem utf8_take_eq {s k : Str} {n : Nat} (hn : n ≤ blen s) (h : (utf8 s).take n = utf8 k) : k <+: s ∧ n = blen k := by
  have h1 : utf8 k <+: utf8 s := by rw [← h]; exact List.take_prefix _ _
  refine ⟨utf8_prefix_iff.mp h1, ?_⟩
  have := congrArg List.length h
  rw [List.length_take, length_utf8, length_utf8] at this
  omega

/-- The trie finds the longest matching key. -/
theorem Mapping.matchLen_spec {m : StrMap} (hm : MappingOk m) (s : Str) :
    match Mapping.matchLen ⟨m, ⟨Mapping.keyset m⟩⟩ s with
    | some n => ∃ k v r, (k, v) ∈ m ∧ s = k ++ r ∧ n = blen k ∧ ∀ k' v', (k', v') ∈ m → k' <+: s → k'.length ≤ k.length
    | none => ∀ k v, (k, v) ∈ m → ¬ k <+: s := by
  unfold Mapping.matchLen
  dsimp only
  have hmem : ∀ k v, (k, v) ∈ m → k <+: s → ∃ u, (u, blen k) ∈ (DoubleArray.mk (Mapping.keyset m)).commonPrefixSearch (utf8 s) := by
    intro k v hkv hp
    obtain ⟨u, hu⟩ := Option.isSome_iff_exists.mp ((exactMatch_keyset_isSome (m := m) (bs := utf8 k)).mpr ⟨k, v, hkv, rfl⟩)
    refine ⟨u, mem_commonPrefixSearch.mpr ⟨blen_pos (hm.keys k v hkv).1, ?_, ?_⟩⟩
    · obtain ⟨r, rfl⟩ := hp; simp
    · rw [utf8_take_of_prefix hp]; exact hu
  cases hl : ((DoubleArray.mk (Mapping.keyset m)).commonPrefixSearch (utf8 s)).getLast? with
  | none =>
    rw [List.getLast?_eq_none_iff] at hl
    intro k v hkv hp
    obtain ⟨u, hu⟩ := hmem k v hkv hp
    rw [hl] at hu
    simp at hu
  | some x =>
    obtain ⟨u, n⟩ := x
    obtain ⟨h0, hn, hx⟩ := mem_commonPrefixSearch.mp (List.mem_of_getLast? hl)
    obtain ⟨k, v, hkv, hk⟩ := exactMatch_keyset_isSome.mp (Option.isSome_iff_exists.mpr ⟨u, hx⟩)
    rw [length_utf8] at hn
    obtain ⟨hp, hnk⟩ := utf8_take_eq hn hk
    obtain ⟨r, hr⟩ := hp
    refine ⟨k, v, r, hkv, hr.symm, hnk, ?_⟩
    intro k' v' hkv' hp'
    obtain ⟨u', hu'⟩ := hmem k' v' hkv' hp'
    have hle := getLast?_max (commonPrefixSearch_increasing _ _) hl _ hu'
    dsimp only at hle
    rw [hnk] at hle
    -- both are prefixes of `s`
    rcases List.prefix_or_prefix_of_prefix hp' ⟨r, hr⟩ with h | h
    · exact h.length_le
    · obtain ⟨q, rfl⟩ := h
      rw [blen_append] at hle
      have : q = [] := blen_eq_zero.mp (by omega)
      simp [this]

theorem Mapping.loop_spec {m : StrMap} (hm : MappingOk m) (text : Str) :
    ∀ (fuel : Nat) (pre : List Piece) (rest : Str) (t : OffsetTable), text = source pre ++ rest → blen rest < fuel → TableOf pre t →
      (∀ p ∈ pre, p.src ≠ []) →
      ∃ ps t', Mapping.loop ⟨m, ⟨Mapping.keyset m⟩⟩ text fuel (blen (source pre)) (target pre) t = .ok (target (pre ++ ps), t') ∧
        LongestMatch m rest ps ∧ TableOf (pre ++ ps) t' ∧ (∀ p ∈ pre ++ ps, p.src ≠ []) ∧ source ps = rest := by
  intro fuel
  induction fuel with
  | zero => intro _ _ _ _ h; omega
  | succ fuel ih =>
    intro pre rest t htext hfuel ht hne
    rw [Mapping.loop]
    have hlen : blen text = blen (source pre) + blen rest := by rw [htext, blen_append]
    have hsnoc : ∀ p : Piece, blen (source (pre ++ [p])) = blen (source pre) + blen p.src ∧ target (pre ++ [p]) = target pre ++ p.dst := by
      intro p; simp [source, target]
    cases rest with
    | nil =>
      rw [if_neg (by simp at hlen; omega)]
      exact ⟨[], t, by simp, .done, by simpa using ht, by simpa using hne, rfl⟩
    | cons c r0 =>
      have hpos : 0 < c.utf8Size := Char.utf8Size_pos c
      rw [if_pos (by rw [hlen, blen_cons]; omega), htext, dropBytes_append]
      rw [orPanic_some, bind_ok]
      have hspec := Mapping.matchLen_spec hm (c :: r0)
      cases hml : Mapping.matchLen ⟨m, ⟨Mapping.keyset m⟩⟩ (c :: r0) with
      | none =>
        rw [hml] at hspec
        dsimp only at hspec ⊢
        have hrec := ht.record ⟨[c], [c]⟩
        rw [show t.record (blen (source pre) + blen [c]) (blen [c]) (blen [c]) = t by simp [OffsetTable.record]] at hrec
        obtain ⟨ps, t', h1, h2, h3, h4, h5⟩ := ih (pre ++ [⟨[c], [c]⟩]) r0 t (by simp [htext, source]) (by simp at hfuel; omega) hrec
          (by intro p hp; rw [List.mem_append, List.mem_singleton] at hp; rcases hp with hp | rfl; exact hne p hp; simp)
        obtain ⟨e1, e2⟩ := hsnoc ⟨[c], [c]⟩
        rw [e1, e2] at h1
        refine ⟨⟨[c], [c]⟩ :: ps, t', ?_, .keep c r0 ps hspec h2, by simpa using h3, by simpa using h4, by simpa [source] using h5⟩
        rw [← htext]
        simpa using h1
      | some n =>
        rw [hml] at hspec
        dsimp only at hspec ⊢
        obtain ⟨k, v, r, hkv, hs, hn, hlong⟩ := hspec
        have hkne := (hm.keys k v hkv).1
        have hslice : sliceBytes (source pre ++ c :: r0) (blen (source pre)) (blen (source pre) + n) = some k := by
          rw [hs, hn, ← List.append_assoc]; exact sliceBytes_append _ _ _
        rw [hslice, orPanic_some, bind_ok, (StrMap.get_eq_some hm.distinct).mpr hkv, orPanic_some, bind_ok]
        have hbk := blen_pos hkne
        have hrb : blen (c :: r0) = blen k + blen r := by rw [hs, blen_append]
        obtain ⟨ps, t', h1, h2, h3, h4, h5⟩ := ih (pre ++ [⟨k, v⟩]) r _ (by rw [htext, hs]; simp [source]) (by omega) (ht.record ⟨k, v⟩)
          (by intro p hp; rw [List.mem_append, List.mem_singleton] at hp; rcases hp with hp | rfl; exact hne p hp; exact hkne)
        obtain ⟨e1, e2⟩ := hsnoc ⟨k, v⟩
        rw [e1, e2] at h1
        refine ⟨⟨k, v⟩ :: ps, t', ?_, ?_, by simpa using h3, by simpa using h4, ?_⟩
        · rw [← htext, hn]
          simpa using h1
        · rw [hs]
          exact .replace k v r ps hkv (by rw [← hs]; exact hlong) h2
        · rw [hs]; simpa [source] using h5

theorem Mapping.apply_spec {m : StrMap} (hm : MappingOk m) (text : Str) :
    ∃ ps t, Mapping.apply ⟨m, ⟨Mapping.keyset m⟩⟩ text = .ok (target ps, t) ∧ LongestMatch m text ps ∧ TableOf ps t ∧
      (∀ p ∈ ps, p.src ≠ []) ∧ source ps = text := by
  obtain ⟨ps, t, h1, h2, h3, h4, h5⟩ := Mapping.loop_spec hm text (blen text + 1) [] text .empty (by simp [source]) (by omega) tableOf_nil (by simp)
  exact ⟨ps, t, h1, h2, by simpa using h3, by simpa using h4, h5⟩

/-- There is only one way to cut a text. -/
theorem LongestMatch.unique {m : StrMap} (hm : MappingOk m) {s : Str} {ps qs : List Piece} (h : LongestMatch m s ps) (h' : LongestMatch m s qs) :
    ps = qs := by
  induction h generalizing qs with
  | done =>
    generalize hs : ([] : Str) = s at h'
    cases h' with
    | done => rfl
    | replace k v r ps mem => 
      have := (hm.keys k v mem).1
      cases k with
      | nil => exact absurd rfl this
      | cons a b => simp at hs
    | keep => simp at hs
  | replace k v r ps mem longest rest ih =>
    generalize hs : k ++ r = s at h'
    cases h' with
    | done =>
      have := (hm.keys k v mem).1
      cases k with
      | nil => exact absurd rfl this
      | cons a b => simp at hs
    | replace k' v' r' ps' mem' longest' rest' =>
      have h1 := longest k' v' mem' (by rw [hs]; exact List.prefix_append _ _)
      have h2 := longest' k v mem (by rw [← hs]; exact List.prefix_append _ _)
      obtain ⟨rfl, rfl⟩ := List.append_inj hs (by omega)
      have : v = v' := by
        have e1 := (StrMap.get_eq_some hm.distinct).mpr mem
        have e2 := (StrMap.get_eq_some hm.distinct).mpr mem'
        rw [e1] at e2; exact Option.some.inj e2
      rw [this, ih rest']
    | keep c r' ps' noKey => exact absurd (by rw [← hs]; exact List.prefix_append _ _) (noKey k v mem)
  | keep c r ps noKey rest ih =>
    generalize hs : c :: r = s at h'
    cases h' with
    | done => simp at hs
    | replace k v r' ps' mem => exact absurd (by rw [hs]; exact List.prefix_append _ _) (noKey k v mem)
    | keep c' r' ps' noKey' rest' =>
      simp only [List.cons.injEq] at hs
      obtain ⟨rfl, rfl⟩ := hs
      rw [ih rest']

/-! ### Normalization filter -/

theorem UnicodeNormalize.fold_spec (f : UnicodeNormalize) (gs : List Str) (pre : List Piece) (t : OffsetTable) (ht : TableOf pre t) :
    ∃ t', gs.foldl f.step (target pre, blen (source pre), t) =
        (target (pre ++ gs.map fun g => ⟨g, f.normalForm g⟩), blen (source (pre ++ gs.map fun g => ⟨g, f.normalForm g⟩)), t') ∧
      TableOf (pre ++ gs.map fun g => ⟨g, f.normalForm g⟩) t' := by
  induction gs generalizing pre t with
  | nil => exact ⟨t, by simp, by simpa using ht⟩
  | cons g gs ih =>
    obtain ⟨t', h1, h2⟩ := ih (pre ++ [⟨g, f.normalForm g⟩]) _ (ht.record ⟨g, f.normalForm g⟩)
    refine ⟨t', ?_, by simpa using h2⟩
    rw [List.foldl_cons]
    have e : f.step (target pre, blen (source pre), t) g = (target (pre ++ [⟨g, f.normalForm g⟩]),
        blen (source (pre ++ [⟨g, f.normalForm g⟩])), t.record (blen (source pre) + blen g) (blen g) (blen (f.normalForm g))) := by
      simp [UnicodeNormalize.step, source, target]
    rw [e]
    refine h1.trans ?_
    simp

/-! ### Regular expression filter -/

theorem source_copied (s : Str) : source (copied s) = s := by
  induction s with
  | nil => rfl
  | cons c s ih => simp only [source, copied, List.map_cons, List.flatMap_cons] at ih ⊢; rw [ih]; rfl

theorem target_copied (s : Str) : target (copied s) = s := by
  induction s with
  | nil => rfl
  | cons c s ih => simp only [target, copied, List.map_cons, List.flatMap_cons] at ih ⊢; rw [ih]; rfl

theorem source_append (ps qs : List Piece) : source (ps ++ qs) = source ps ++ source qs := by simp [source]
theorem target_append (ps qs : List Piece) : target (ps ++ qs) = target ps ++ target qs := by simp [target]

theorem Matches.source_eq {dst : RegexMatch → Str} {o : Nat} {ms : List RegexMatch} {s : Str} {ps : List Piece} (h : Matches dst o ms s ps) :
    source ps = s := by
  induction h with
  | done o s => exact source_copied s
  | hit o m ms gap mt r ps _ _ _ ih =>
    rw [source_append, source_copied]
    simp only [source, List.flatMap_cons] at ih ⊢
    rw [ih, List.append_assoc]

/-- A replacement without `$` stands for itself. -/
theorem expands_literal (group : Str → Str) : ∀ (s : Str), '$' ∉ s → Expands group s s
  | [], _ => .nil
  | c :: s, h => .char (fun e => h (by simp [e])) (expands_literal group s fun hs => h (by simp [hs]))

/-- The expansion of a replacement without `$` is the replacement. -/
theorem expandRefs_literal (group : Str → Str) (n : Nat) (s : Str) (h : '$' ∉ s) : expandRefs group n s = s := by
  induction n generalizing s with
  | zero => rfl
  | succ n ih =>
    cases s with
    | nil => rfl
    | cons c s =>
      have hc : c ≠ '$' := fun e => h (by simp [e])
      unfold expandRefs
      rw [if_pos hc, ih s (fun hs => h (by simp [hs]))]

theorem isRefChar_iff {c : Char} : isRefChar c = true ↔ NameChar c := by
  have le : ∀ a b : Char, a ≤ b ↔ a.toNat ≤ b.toNat := fun a b => Iff.rfl
  have eq : ∀ a b : Char, a = b ↔ a.toNat = b.toNat := fun a b => ⟨fun h => h ▸ rfl, fun h => Char.ext (UInt32.toNat_inj.mp h)⟩
  unfold isRefChar NameChar
  rw [eq c '_']
  simp only [le, Bool.or_eq_true, Bool.and_eq_true, decide_eq_true_eq, beq_iff_eq]
  have h0 : '0'.toNat = 48 := rfl
  have h9 : '9'.toNat = 57 := rfl
  have hA : 'A'.toNat = 65 := rfl
  have hZ : 'Z'.toNat = 90 := rfl
  have ha : 'a'.toNat = 97 := rfl
  have hz : 'z'.toNat = 122 := rfl
  have hu : '_'.toNat = 95 := rfl
  omega

theorem split_at_brace {s : Str} (h : '}' ∈ s) : '}' ∉ s.takeWhile (· ≠ '}') ∧ s = s.takeWhile (· ≠ '}') ++ '}' :: (s.dropWhile (· ≠ '}')).drop 1 := by
  induction s with
  | nil => simp at h
  | cons c s ih =>
    by_cases hc : c = '}'
    · subst hc; simp
    · obtain ⟨h1, h2⟩ := ih (by simpa [Ne.symm hc] using h)
      constructor
      · simp only [List.takeWhile_cons, hc, ne_eq, not_false_eq_true, decide_true, if_true, List.mem_cons, not_or]
        exact ⟨Ne.symm hc, h1⟩
      · simp only [List.takeWhile_cons, List.dropWhile_cons, hc, ne_eq, not_false_eq_true, decide_true, if_true, List.cons_append, List.cons.injEq, true_and]
        exact h2

theorem head_dropWhile {s : Str} {c : Char} (h : (s.dropWhile isRefChar).head? = some c) : isRefChar c = false := by
  induction s with
  | nil => simp at h
  | cons d s ih =>
    cases hd : isRefChar d with
    | true => simp only [List.dropWhile_cons, hd, if_true] at h; exact ih h
    | false => simp [hd] at h; exact h ▸ hd

/-- The expansion is the one described. -/
theorem expandRefs_expands (group : Str → Str) : ∀ (n : Nat) (s : Str), s.length ≤ n → Expands group s (expandRefs group n s) := by
  intro n
  induction n with
  | zero =>
    intro s hs
    have : s = [] := List.eq_nil_of_length_eq_zero (by omega)
    subst this
    exact .nil
  | succ n ih =>
    intro s hs
    cases s with
    | nil => exact .nil
    | cons c s =>
      simp only [List.length_cons] at hs
      unfold expandRefs
      by_cases hc : c = '$'
      · subst hc
        rw [if_neg (by simp)]
        split
        · rename_i s
          simp only [List.length_cons] at hs
          exact .dollar (ih s (by omega))
        · rename_i s
          simp only [List.length_cons] at hs
          by_cases hb : '}' ∈ s
          · rw [if_pos hb]
            obtain ⟨h1, h2⟩ := split_at_brace hb
            have hl := congrArg List.length h2
            simp only [List.length_append, List.length_cons] at hl
            have := Expands.braced h1 (ih ((s.dropWhile (· ≠ '}')).drop 1) (by omega))
            rw [← h2] at this
            exact this
          · rw [if_neg hb]
            exact .bare (by intro c hc; cases hc; exact ⟨by decide, by rw [← isRefChar_iff]; decide⟩) (fun _ => by simpa using hb) (ih _ (by simp; omega))
        · rename_i hd hb
          by_cases he : s.takeWhile isRefChar = []
          · rw [if_pos he]
            refine .bare (fun c hc => ⟨?_, ?_⟩) (fun hc => ?_) (ih s (by omega))
            · rintro rfl
              cases s with
              | nil => cases hc
              | cons d s => cases hc; exact hd s rfl
            · rw [← isRefChar_iff]
              intro hr
              cases s with
              | nil => cases hc
              | cons d s => cases hc; simp [hr] at he
            · cases s with
              | nil => cases hc
              | cons d s => cases hc; exact absurd rfl (hb s)
          · rw [if_neg he]
            have hsplit := List.takeWhile_append_dropWhile (p := isRefChar) (l := s)
            have hl := congrArg List.length hsplit
            simp only [List.length_append] at hl
            have := Expands.named (group := group) he (fun c hc => isRefChar_iff.mp (List.all_eq_true.mp List.all_takeWhile c hc))
              (fun c hc => by rw [← isRefChar_iff, head_dropWhile hc]; simp) (ih (s.dropWhile isRefChar) (by omega))
            rw [hsplit] at this
            exact this
      · rw [if_pos hc]
        exact .char hc (ih s (by omega))

/-- A name is the longest one. -/
theorem name_unique : ∀ {a b s t : Str}, (∀ c ∈ a, NameChar c) → (∀ c ∈ b, NameChar c) → (∀ c, s.head? = some c → ¬ NameChar c) → (∀ c, t.head? = some c → ¬ NameChar c) →
    a ++ s = b ++ t → a = b ∧ s = t
  | [], [], _, _, _, _, _, _, h => ⟨rfl, h⟩
  | [], c :: b, _, _, _, hb, hs, _, h => absurd (hb c (by simp)) (hs c (by simp only [List.nil_append] at h; rw [h]; rfl))
  | c :: a, [], _, _, ha, _, _, ht, h => absurd (ha c (by simp)) (ht c (by simp only [List.nil_append] at h; rw [← h]; rfl))
  | c :: a, d :: b, _, _, ha, hb, hs, ht, h => by
    simp only [List.cons_append, List.cons.injEq] at h
    obtain ⟨rfl, h⟩ := h
    obtain ⟨rfl, rfl⟩ := name_unique (fun x hx => ha x (by simp [hx])) (fun x hx => hb x (by simp [hx])) hs ht h
    exact ⟨rfl, rfl⟩

theorem brace_unique : ∀ {a b s t : Str}, '}' ∉ a → '}' ∉ b → a ++ '}' :: s = b ++ '}' :: t → a = b ∧ s = t
  | [], [], _, _, _, _, h => by simpa using h
  | [], c :: b, _, _, _, hb, h => by
    simp only [List.nil_append, List.cons_append, List.cons.injEq] at h
    exact absurd (List.mem_cons.mpr (.inl h.1)) hb
  | c :: a, [], _, _, ha, _, h => by
    simp only [List.nil_append, List.cons_append, List.cons.injEq] at h
    exact absurd (by simp [h.1]) ha
  | c :: a, d :: b, _, _, ha, hb, h => by
    simp only [List.cons_append, List.cons.injEq] at h
    obtain ⟨rfl, h⟩ := h
    obtain ⟨rfl, rfl⟩ := brace_unique (fun hx => ha (by simp [hx])) (fun hx => hb (by simp [hx])) h
    exact ⟨rfl, rfl⟩

theorem not_nameChar_dollar : ¬ NameChar '$' := by rw [← isRefChar_iff]; decide
theorem not_nameChar_brace : ¬ NameChar '{' := by rw [← isRefChar_iff]; decide

/-- A replacement has one meaning. -/
theorem expands_unique {group : Str → Str} {s o : Str} (h : Expands group s o) : ∀ {o'}, Expands group s o' → o = o' := by
  induction h with
  | nil => intro o' h'; cases h'; rfl
  | char hc _ ih =>
    intro o' h'
    cases h' with
    | char _ h' => rw [ih h']
    | dollar | braced | named | bare => exact absurd rfl hc
  | dollar _ ih =>
    intro o' h'
    generalize he : '$' :: '$' :: _ = u at h'
    cases h' with
    | nil => cases he
    | char hc _ => cases he; exact absurd rfl hc
    | dollar h' => cases he; rw [ih h']
    | braced => simp at he
    | @named name _ _ h1 h2 _ _ =>
      cases name with
      | nil => exact absurd rfl h1
      | cons c name => simp only [List.cons_append, List.cons.injEq, true_and] at he; exact absurd (he.1 ▸ h2 c (by simp)) not_nameChar_dollar
    | bare h1 _ _ => cases he; exact absurd rfl (h1 '$' rfl).1
  | @braced name s o h1 _ ih =>
    intro o' h'
    generalize he : '$' :: '{' :: (name ++ '}' :: s) = u at h'
    cases h' with
    | nil => cases he
    | char hc _ => cases he; exact absurd rfl hc
    | dollar => simp at he
    | braced h2 h' =>
      simp only [List.cons.injEq, true_and] at he
      obtain ⟨rfl, rfl⟩ := brace_unique h1 h2 he
      rw [ih h']
    | @named name' _ _ g1 g2 _ _ =>
      cases name' with
      | nil => exact absurd rfl g1
      | cons c name' => simp only [List.cons_append, List.cons.injEq, true_and] at he; exact absurd (he.1 ▸ g2 c (by simp)) not_nameChar_brace
    | bare _ g2 _ => cases he; exact absurd (by simp) (g2 rfl)
  | @named name s o h1 h2 h3 _ ih =>
    intro o' h'
    obtain ⟨c, name', rfl⟩ := List.exists_cons_of_ne_nil h1
    generalize he : '$' :: ((c :: name') ++ s) = u at h'
    cases h' with
    | nil => cases he
    | char hc _ => cases he; exact absurd rfl hc
    | dollar => simp only [List.cons_append, List.cons.injEq, true_and] at he; exact absurd (he.1 ▸ h2 c (by simp)) not_nameChar_dollar
    | braced => simp only [List.cons_append, List.cons.injEq, true_and] at he; exact absurd (he.1 ▸ h2 c (by simp)) not_nameChar_brace
    | named g1 g2 g3 h' =>
      simp only [List.cons.injEq, true_and] at he
      obtain ⟨rfl, rfl⟩ := name_unique h2 g2 h3 g3 he
      rw [ih h']
    | bare g1 _ _ => cases he; exact absurd (h2 c (by simp)) (g1 c rfl).2
  | @bare s o h1 h2 _ ih =>
    intro o' h'
    generalize he : '$' :: s = u at h'
    cases h' with
    | nil => cases he
    | char hc _ => cases he; exact absurd rfl hc
    | dollar => cases he; exact absurd rfl (h1 '$' rfl).1
    | braced => cases he; exact absurd (by simp) (h2 rfl)
    | @named name _ _ g1 g2 _ _ =>
      cases name with
      | nil => exact absurd rfl g1
      | cons c name => cases he; exact absurd (g2 c (by simp)) (h1 c rfl).2
    | bare _ _ h' => cases he; rw [ih h']

theorem Matches.other {dst dst' : RegexMatch → Str} {o : Nat} {ms : List RegexMatch} {s : Str} {ps : List Piece} (h : Matches dst o ms s ps) : ∃ ps', Matches dst' o ms s ps' := by
  induction h with
  | done o s => exact ⟨_, .done o s⟩
  | hit o m ms gap mt r ps start stop _ ih =>
    obtain ⟨ps', h'⟩ := ih
    exact ⟨_, .hit o m ms gap mt r ps' start stop h'⟩

theorem RegexFilter.replaceFrom_spec (f : RegexFilter) (text : Str) {o : Nat} {ms : List RegexMatch} {s : Str} {ps : List Piece}
    {dst : RegexMatch → Str} (h : Matches dst o ms s ps) : (∀ m ∈ ms, Expands m.group f.replacement (dst m)) →
    ∀ before : Str, text = before ++ s → o = blen before → f.replaceFrom text o ms = .ok (target ps) := by
  induction h with
  | done o s =>
    rintro - before rfl rfl
    rw [RegexFilter.replaceFrom]
    have := sliceBytes_append before s []
    rw [List.append_nil] at this
    rw [blen_append, this, target_copied]; rfl
  | hit o m ms gap mt r ps start stop rest ih =>
    intro hd before htext ho
    rw [RegexFilter.replaceFrom, start, ho, htext]
    rw [show before ++ (gap ++ mt ++ r) = before ++ gap ++ (mt ++ r) by simp, sliceBytes_append, orPanic_some, bind_ok]
    have := ih (fun m' hm' => hd m' (by simp [hm'])) (before ++ gap ++ mt) (by rw [htext]; simp) (by rw [stop, start, ho]; simp [Nat.add_assoc])
    rw [htext, show before ++ (gap ++ mt ++ r) = before ++ gap ++ (mt ++ r) by simp] at this
    rw [this, bind_ok, pure_eq_ok, expands_unique (expandRefs_expands m.group _ f.replacement (Nat.le_refl _)) (hd m (by simp)), target_append, target_copied]
    simp [target]

theorem RegexFilter.fold_spec (f : RegexFilter) (text : Str) {o : Nat} {ms : List RegexMatch} {s : Str} {ps : List Piece}
    {dst : RegexMatch → Str} (h : Matches dst o ms s ps) : (∀ m ∈ ms, blen (dst m) = blen f.replacement) →
    ∀ (pre : List Piece) (t : OffsetTable), text = source pre ++ s → o = blen (source pre) → TableOf pre t →
      ∃ t', ms.foldlM (f.step text) t = .ok t' ∧ TableOf (pre ++ ps) t' := by
  induction h with
  | done o s =>
    intro _ pre t _ _ ht
    exact ⟨t, rfl, ht.copied s⟩
  | hit o m ms gap mt r ps start stop rest ih =>
    intro hd pre t htext ho ht
    have hsl : sliceBytes text m.start m.stop = some mt := by
      have := sliceBytes_append (source pre ++ gap) mt r
      rw [htext, stop, start, ho]
      simpa [Nat.add_assoc] using this
    have hstep : f.step text t m = .ok (t.record (m.start + blen mt) (blen mt) (blen f.replacement)) := by
      unfold RegexFilter.step
      rw [hsl]; rfl
    rw [List.foldlM_cons, hstep, bind_ok]
    have h1 := (ht.copied gap).record ⟨mt, dst m⟩
    rw [hd m (by simp)] at h1
    have e : blen (source (pre ++ copied gap)) = m.start := by rw [source_append, blen_append, source_copied, start, ho]
    rw [e] at h1
    obtain ⟨t', h2, h3⟩ := ih (fun m' hm' => hd m' (by simp [hm'])) (pre ++ copied gap ++ [⟨mt, dst m⟩]) _
      (by rw [htext, source_append, source_append, source_copied]; simp [source])
      (by rw [source_append, blen_append, e, stop]; simp [source]) h1
    exact ⟨t', h2, by simpa using h3⟩

end Verif.Model
