import Verif.Proofs.Sources
import Verif.Spec.Storage
/-! What is compiled from sources of less than 2^32 lines can be stored. -/
namespace Verif.Model
open Verif.Spec Verif.Props

theorem firsts_length {α : Type} [DecidableEq α] (xs : List α) : (firsts xs).length ≤ xs.length := by
  induction xs with
  | nil => simp [firsts]
  | cons x xs ih =>
    have := List.length_filter_le (· ≠ x) (firsts xs)
    simp only [firsts, List.length_cons]
    omega

theorem categoriesOf_length (file : List DefLine) (c : Nat) : (categoriesOf file c).length ≤ (file.flatMap DefLine.names).length + 1 := by
  have h : (file.flatMap (DefLine.categoriesOf c)).length ≤ (file.flatMap DefLine.names).length := by
    induction file with
    | nil => simp
    | cons l file ih =>
      have : (l.categoriesOf c).length ≤ l.names.length := by
        cases l with
        | category => simp [DefLine.categoriesOf]
        | range low high names =>
          simp only [DefLine.categoriesOf, DefLine.names]
          split <;> simp
      simp only [List.flatMap_cons, List.length_append]
      omega
  have h2 := firsts_length (file.flatMap (DefLine.categoriesOf c))
  unfold categoriesOf
  dsimp only
  split
  · simp
  · omega

theorem range_bounds {text : Str} {file : List DefLine} (h : DefRead text file) {low high : Nat} {names : List Str} (hr : DefLine.range low high names ∈ file) :
    low < 2 ^ 16 ∧ high < 2 ^ 16 := by
  obtain ⟨ls, contents, -, hc, rfl⟩ := h
  simp only [List.mem_filterMap, id, exists_eq_right] at hr
  obtain ⟨i, hi⟩ := List.getElem?_of_mem hr
  obtain ⟨hl, hi⟩ := List.getElem?_eq_some_iff.mp hi
  have hlen := hc.length_eq
  have := List.Forall₂.get hc (by omega) hl
  rw [List.get_eq_getElem, List.get_eq_getElem, hi] at this
  obtain ⟨s, -, ht⟩ := this
  have key : ∀ s n, CodePointRead s n → n < 2 ^ 16 := by
    rintro s n ⟨-, -, -, v, -, -, -, h, -, -, rfl⟩
    split <;> omega
  cases ht with
  | range _ _ hint =>
    rcases hint with ⟨h1, rfl⟩ | ⟨a, b, -, h1, h2⟩
    · exact ⟨key _ _ h1, key _ _ h1⟩
    · exact ⟨key _ _ h1, key _ _ h2⟩

theorem sorted_length {n : Nat} {xs : List Nat} : ∀ {k : Nat}, xs.Pairwise (· < ·) → (∀ x ∈ xs, k ≤ x ∧ x < k + n) → xs.length ≤ n := by
  induction xs generalizing n with
  | nil => simp
  | cons x xs ih =>
    intro k h hx
    have h1 := hx x (by simp)
    obtain ⟨n', rfl⟩ : ∃ n', n = n' + 1 := ⟨n - 1, by omega⟩
    have := ih (n := n') (k := k + 1) h.of_cons fun y hy => by
      have h2 := (List.pairwise_cons.mp h).1 y hy
      have h3 := hx y (by simp [hy])
      omega
    simp only [List.length_cons]
    omega

theorem chars_typed {text : Str} {c : Contents} (h : DefRead text c.defs) (hs : Storable c) {d : CharDefs} (hd : Compiles text d) : CharDefsTyped d := by
  obtain ⟨b, hb, hd'⟩ := compiles_read h
  obtain rfl := compiled_unique hd hd'
  have hm := hs.mentions
  have hf := firsts_length (c.defs.flatMap DefLine.names)
  have hbound : ∀ r ∈ b.ranges, r.1 < 2 ^ 16 ∧ r.2.1 < 2 ^ 16 := by
    intro r hr
    obtain ⟨i, hi⟩ := List.getElem?_of_mem hr
    obtain ⟨hl, hi⟩ := List.getElem?_eq_some_iff.mp hi
    have hlen := hb.ranges.length_eq
    have hsame := List.Forall₂.get hb.ranges hl (by omega)
    rw [List.get_eq_getElem, List.get_eq_getElem, hi] at hsame
    have hmem : (rangesOf c.defs)[i]'(by omega) ∈ rangesOf c.defs := List.getElem_mem _
    generalize (rangesOf c.defs)[i]'(by omega) = l at hsame hmem
    unfold rangesOf at hmem
    rw [List.mem_filterMap] at hmem
    obtain ⟨line, h1, h2⟩ := hmem
    split at h2
    · cases h2
    · next lo hi' names =>
      cases h2
      have := range_bounds h h1
      rw [hsame.1, hsame.2.1]
      exact this
  have hbs : ∀ x ∈ sortedSet (b.ranges.flatMap fun r => [r.1, r.2.1 + 1]), x < 2 ^ 17 := by
    intro x hx
    rw [mem_sortedSet, List.mem_flatMap] at hx
    obtain ⟨r, hr, hx⟩ := hx
    have := hbound r hr
    simp only [List.mem_cons, List.not_mem_nil, or_false] at hx
    omega
  have hsorted := sortedSet_sorted (b.ranges.flatMap fun r => [r.1, r.2.1 + 1])
  have hblen := sorted_length (n := 2 ^ 17) (k := 0) hsorted fun x hx => ⟨Nat.zero_le _, by have := hbs x hx; omega⟩
  have hl2 : ∀ xs : List Nat, (sortNat xs).length = xs.length := by
    intro xs
    have hi : ∀ x ys, (insertNat true x ys).length = ys.length + 1 := by
      intro x ys
      induction ys with
      | nil => rfl
      | cons y ys ih =>
        unfold insertNat
        split
        · rfl
        · split
          · next h => simp at h
          · simp [ih]
    induction xs with
    | nil => rfl
    | cons x xs ih =>
      show (insertNat true x (sortNat xs)).length = _
      rw [hi, ih]
      rfl
  have hdefs : b.definitions.length ≤ c.defs.length := by
    rw [hb.datas]
    exact List.length_filterMap_le _ _
  have hlines := hs.lines
  constructor
  · simp only [Usize]
    omega
  · refine ⟨by simp only [Usize]; omega, fun n hn => ?_⟩
    rw [mem_firsts] at hn
    have := hs.names n hn
    simp only [Usize]
    omega
  · simp only [CharDefBuilder.buildLookupTable, LookupTable.fromFn]
    constructor
    · rw [hl2]
      simp only [Usize]
      split
      · omega
      · simp only [List.length_append, List.length_cons, List.length_nil]
        omega
    · intro x hx
      rw [mem_sortNat] at hx
      split at hx
      · have := hbs x hx; omega
      · simp only [List.mem_append, List.mem_cons, List.not_mem_nil, or_false] at hx
        rcases hx with hx | hx
        · have := hbs x hx; omega
        · omega
  · simp only [CharDefBuilder.buildLookupTable, LookupTable.fromFn]
    constructor
    · rw [List.length_map, hl2]
      simp only [Usize]
      split
      · omega
      · simp only [List.length_append, List.length_cons, List.length_nil]
        omega
    · intro v hv
      obtain ⟨x, -, rfl⟩ := List.mem_map.mp hv
      have h1 := lookupCategories_spec hb x
      have h2 := categoriesOf_length c.defs x
      have h3 := h1.length_eq
      refine ⟨by simp only [Usize]; omega, fun id hid => ?_⟩
      obtain ⟨i, hi⟩ := List.getElem?_of_mem hid
      obtain ⟨hl, hi⟩ := List.getElem?_eq_some_iff.mp hi
      have h4 := List.Forall₂.get h1 hl (by omega)
      rw [List.get_eq_getElem, List.get_eq_getElem, hi] at h4
      have h5 := (List.getElem?_eq_some_iff.mp h4).1
      simp only [Usize]
      omega

theorem unk_typed {categories : List Str} {expected : Nat} (hx : 4 ≤ expected) {text : Str} {ls : List UnkLine} (h : UnkRead expected text ls) (hlen : ls.length ≤ 2 ^ 32)
    (hcat : categories.length < 2 ^ 64) {u : UnkDict} (hu : parseUnk categories text expected = .ok u) : UnkDictTyped u := by
  obtain ⟨es, h1, rfl⟩ := (unkEntries_iff hx).mpr h
  unfold parseUnk at hu
  rw [h1, bind_ok] at hu
  cases hu
  rw [List.length_map] at hlen
  constructor
  · simp only [makeCategoryReferences]
    refine ⟨by simpa [Usize] using hcat, fun v hv => ?_⟩
    obtain ⟨n, -, rfl⟩ := List.mem_map.mp hv
    unfold entryIdsMatching
    have := List.length_filterMap_le (fun x : UnkEntry × Nat => if x.1.surface = n then some (UInt32.ofNat x.2) else none) es.zipIdx
    simp only [List.length_zipIdx] at this
    simp only [Usize]
    omega
  · simp only [makeCostsArray, List.length_map, Usize]
    omega

theorem parts_typed {env : BuildEnv} {kind : DictionaryKind} {src : SourceDir} {c : Contents} (hh : ∀ index, (env.hashOrder index).Perm index)
    (hs : Says env kind src c) (hg : Good kind c) (hst : Storable c) {parts : CompiledParts} (hp : compile env kind src = .ok parts) :
    CharDefsTyped parts.chardef ∧ UnkDictTyped parts.unk := by
  obtain ⟨⟨b1, hb1, ht1⟩, ⟨b2, hb2, ht2⟩, -, -⟩ := hs
  unfold compile at hp
  dsimp only at hp
  rw [bind_eq_ok] at hp
  obtain ⟨d, h1, hp⟩ := hp
  rw [bind_eq_ok] at hp
  obtain ⟨u, h2, hp⟩ := hp
  rw [bind_eq_ok] at hp
  obtain ⟨rows, -, hp⟩ := hp
  rw [bind_eq_ok] at hp
  obtain ⟨dict, -, hp⟩ := hp
  rw [bind_eq_ok] at hp
  obtain ⟨matrix, -, hp⟩ := hp
  cases hp
  have e : (BuildCfg.ofKind kind).encoding = (sourceFormat kind).encoding ∧ (BuildCfg.ofKind kind).unkFields = (sourceFormat kind).unkColumns := by
    cases kind <;> exact ⟨rfl, rfl⟩
  obtain ⟨d', hd', hok⟩ := chars_ok ht1 hg.ordered
  obtain ⟨b, hpb, hbd⟩ := hd'
  unfold BuildEnv.compileChardef at h1
  rw [hb1, e.1] at h1
  simp only [BuildEnv.readText, bind_ok] at h1
  rw [hpb, bind_ok, hbd _ (hh _)] at h1
  cases h1
  unfold BuildEnv.compileUnk at h2
  rw [hb2, e.1, e.2] at h2
  simp only [BuildEnv.readText, bind_ok] at h2
  refine ⟨chars_typed ht1 hst ⟨b, hpb, hbd⟩, unk_typed (by cases kind <;> decide) ht2 hg.unkCount ?_ h2⟩
  have := firsts_length (c.defs.flatMap DefLine.names)
  have hm := hst.mentions
  rw [hok.names]
  omega

end Verif.Model
