import Verif.Proofs.LatticeScan
/-! The order of the edges is the order in which words are written in the dictionaries. -/
namespace Verif.Model
open Verif.Spec

theorem commonPrefixSearch_sorted (da : DoubleArray) (s : List UInt8) : ((da.commonPrefixSearch s).map (·.2)).Pairwise (· < ·) := by
  unfold DoubleArray.commonPrefixSearch
  rw [List.map_filterMap]
  rw [List.pairwise_filterMap]
  refine List.pairwise_lt_range.imp ?_
  intro a b hab x hx y hy
  simp only [Option.map_map, Option.map_eq_some_iff, Function.comp_apply] at hx hy
  obtain ⟨_, _, rfl⟩ := hx
  obtain ⟨_, _, rfl⟩ := hy
  omega

theorem tags_groups {d : PrefixDict} {start : Nat} {suffix : Str} : ∀ {cps : List (UInt32 × Nat)} {groups : List (List (Nat × WordEntry))} {new : List Edge},
    (cps.mapM fun (offsetLen, prefixLen) => do
      let es ← d.entriesAt offsetLen
      return es.map fun e => (prefixLen, e)) = (.ok groups : R _) →
    (groups.flatten.mapM fun w => do
      let surface ← orPanic (takeBytes suffix w.1)
      return wordEdge .known w.2 start surface) = (.ok new : R _) →
    (cps.map (·.2)).Pairwise (· < ·) →
    ∃ ts : List (Edge × Nat), ts.map (·.1) = new ∧
      (∀ x, x ∈ ts ↔ ∃ v n es e s, (v, n) ∈ cps ∧ d.entriesAt v = .ok es ∧ es[x.2]? = some e ∧ takeBytes suffix n = some s ∧ x.1 = wordEdge .known e start s) ∧
      ts.Pairwise fun x y => x.1.stopIndex = y.1.stopIndex → x.2 ≤ y.2
  | [], groups, new, hg, hn, _ => by
    simp at hg
    subst hg
    simp at hn
    subst hn
    exact ⟨[], rfl, by simp, .nil⟩
  | (v, n) :: cps, groups, new, hg, hn, hs => by
    rw [List.mapM_cons] at hg
    simp only [bind_eq_ok, pure_eq_ok, Except.ok.injEq] at hg
    obtain ⟨g, ⟨es, hes, rfl⟩, gs, hgs, rfl⟩ := hg
    rw [List.flatten_cons, List.mapM_append] at hn
    simp only [bind_eq_ok, pure_eq_ok, Except.ok.injEq] at hn
    obtain ⟨new1, h1, new2, h2, rfl⟩ := hn
    rw [List.map_cons, List.pairwise_cons] at hs
    obtain ⟨ts, ht1, ht2, ht3⟩ := tags_groups hgs (by simpa [bind_eq_ok] using h2) hs.2
    have hget : ∀ (i : Nat) (e : Edge), new1[i]? = some e ↔ ∃ w s, es[i]? = some w ∧ takeBytes suffix n = some s ∧ e = wordEdge .known w start s := by
      rw [mapM_ok_iff, List.forall₂_map_left_iff] at h1
      clear ht1 ht2 ht3 hs h2 hgs hes
      induction h1 with
      | nil => simp
      | @cons w e ws es' hx _ ih =>
        intro i e'
        cases i with
        | zero =>
          simp only [bind_eq_ok, orPanic_eq_ok, Except.ok.injEq] at hx
          obtain ⟨s, hs, hx⟩ := hx
          simp only [List.getElem?_cons_zero, Option.some.injEq]
          constructor
          · rintro rfl; exact ⟨w, s, rfl, hs, hx.symm⟩
          · rintro ⟨w', s', rfl, hs', rfl⟩
            rw [hs] at hs'; cases hs'; exact hx.symm
        | succ i => simpa using ih i e'
    refine ⟨new1.zipIdx ++ ts, by simp [ht1], ?_, ?_⟩
    · rintro ⟨e, i⟩
      rw [List.mem_append, ht2, List.mem_zipIdx_iff_getElem?, hget]
      constructor
      · rintro (⟨w, s, h3, h4, h5⟩ | ⟨v', n', es', e', s, h3, h4⟩)
        · exact ⟨v, n, es, w, s, by simp, hes, h3, h4, h5⟩
        · exact ⟨v', n', es', e', s, by simp [h3], h4⟩
      · rintro ⟨v', n', es', e', s, h3, h4, h5, h6, h7⟩
        rcases List.mem_cons.mp h3 with h3 | h3
        · cases h3
          rw [hes] at h4; cases h4
          exact .inl ⟨e', s, h5, h6, h7⟩
        · exact .inr ⟨v', n', es', e', s, h3, h4, h5, h6, h7⟩
    · rw [List.pairwise_append]
      refine ⟨?_, ht3, ?_⟩
      · have : (new1.zipIdx.map (·.2)).Pairwise (· < ·) := by
          rw [List.zipIdx_eq_zip_range', List.map_snd_zip (by simp)]
          exact List.pairwise_lt_range'
        rw [List.pairwise_map] at this
        refine this.imp ?_
        intro a b h _
        exact Nat.le_of_lt h
      · rintro ⟨e, i⟩ hx ⟨e', i'⟩ hy hstop
        exfalso
        rw [List.mem_zipIdx_iff_getElem?, hget] at hx
        obtain ⟨w, s, -, h4, h5⟩ := hx
        obtain ⟨v', n', es', w', s', h6, -, -, h7, h8⟩ := (ht2 _).mp hy
        simp only at h5 h8 hstop
        obtain ⟨_, _, hb⟩ := takeBytes_eq_some.mp h4
        obtain ⟨_, _, hb'⟩ := takeBytes_eq_some.mp h7
        have := hs.1 n' (List.mem_map.mpr ⟨_, h6, rfl⟩)
        rw [h5, h8] at hstop
        simp only [wordEdge] at hstop
        omega

theorem findSurface_get {d : PrefixDict} {s : Str} {i : Nat} {e : WordEntry} :
    (∃ es, d.findSurface s = .ok es ∧ es[i]? = some e) ↔ ∃ v es, d.da.exactMatch (utf8 s) = some v ∧ d.entriesAt v = .ok es ∧ es[i]? = some e := by
  unfold PrefixDict.findSurface
  cases d.da.exactMatch (utf8 s) with
  | none => simp
  | some v => simp

/-- The edges for the words of a dictionary come in the order of the entries. -/
theorem dictEdges_tags {d : PrefixDict} {start : Nat} {suffix : Str} {new : List Edge} (h : dictEdges d start suffix = .ok new) :
    ∃ ts : List (Edge × Nat), ts.map (·.1) = new ∧
      (∀ x, x ∈ ts ↔ ∃ s es e, s ≠ [] ∧ s <+: suffix ∧ d.findSurface s = .ok es ∧ es[x.2]? = some e ∧ x.1 = wordEdge .known e start s) ∧
      ts.Pairwise fun x y => x.1.stopIndex = y.1.stopIndex → x.2 ≤ y.2 := by
  unfold dictEdges PrefixDict.prefix at h
  simp only [bind_eq_ok, pure_eq_ok, Except.ok.injEq] at h
  obtain ⟨ws, ⟨groups, hg, rfl⟩, h⟩ := h
  obtain ⟨ts, h1, h2, h3⟩ := tags_groups (d := d) (start := start) (suffix := suffix) hg h (commonPrefixSearch_sorted _ _)
  refine ⟨ts, h1, fun x => ?_, h3⟩
  rw [h2]
  constructor
  · rintro ⟨v, n, es, e, s, h4, h5, h6, h7, h8⟩
    obtain ⟨r, hr, hb⟩ := takeBytes_eq_some.mp h7
    obtain ⟨h9, h10, h11⟩ := mem_commonPrefixSearch.mp h4
    have hpre : s <+: suffix := ⟨r, hr.symm⟩
    rw [← hb, utf8_take_of_prefix hpre] at h11
    obtain ⟨es', h12, h13⟩ := findSurface_get.mpr ⟨v, es, h11, h5, h6⟩
    exact ⟨s, es', e, by rintro rfl; simp at hb; omega, hpre, h12, h13, h8⟩
  · rintro ⟨s, es, e, hne, hpre, h4, h5, h6⟩
    obtain ⟨v, es', h7, h8, h9⟩ := findSurface_get.mp ⟨es, h4, h5⟩
    obtain ⟨t, rfl⟩ := hpre
    refine ⟨v, blen s, es', e, s, mem_commonPrefixSearch.mpr ⟨blen_pos hne, by simp [length_utf8], ?_⟩, h8, h9, takeBytes_append _ _, h6⟩
    rw [utf8_take_of_prefix ⟨t, rfl⟩]; exact h7

/-- Where the lookup of a prefix succeeds, so does the lookup of the surface. -/
theorem dictEdges_find {d : PrefixDict} {start : Nat} {suffix : Str} {new : List Edge} (h : dictEdges d start suffix = .ok new) {s : Str} (hne : s ≠ []) (hpre : s <+: suffix) :
    ∃ es, d.findSurface s = .ok es := by
  unfold dictEdges PrefixDict.prefix at h
  simp only [bind_eq_ok, pure_eq_ok, Except.ok.injEq] at h
  obtain ⟨ws, ⟨groups, hg, rfl⟩, -⟩ := h
  unfold PrefixDict.findSurface
  cases hm : d.da.exactMatch (utf8 s) with
  | none => exact ⟨_, rfl⟩
  | some v =>
    obtain ⟨t, rfl⟩ := hpre
    have : (v, blen s) ∈ d.da.commonPrefixSearch (utf8 (s ++ t)) := mem_commonPrefixSearch.mpr ⟨blen_pos hne, by simp [length_utf8], by rw [utf8_take_of_prefix ⟨t, rfl⟩]; exact hm⟩
    obtain ⟨y, _, hy⟩ := mem_mapM_ok hg this
    simp only [bind_eq_ok] at hy
    obtain ⟨es, hes, _⟩ := hy
    exact ⟨es, hes⟩

theorem Proposes.text_unique {env : LatticeEnv} {rest : Str} {cat ord : Nat} {s s' : Str} (h : Proposes env rest cat ord s) (h' : Proposes env rest cat ord s') : s = s' := by
  obtain ⟨_, _, _, d1, _, _, _, hd1, _, e1⟩ := h
  obtain ⟨_, _, _, d2, _, _, _, hd2, _, e2⟩ := h'
  rw [hd1] at hd2; cases hd2
  rw [e1, e2]

/-- The edges for the unknown words of a category come in the order of its entries. -/
theorem unkEdges_get {env : LatticeEnv} {start : Nat} {c : Char} {cs : Str} {found : Bool}
    {ue ue' : Option Nat} {cat ord : Nat} {cats : List Nat} {new : List Edge}
    (hc : env.charDefs.lookupCategories c = .ok cats) (hcat : cats[ord]? = some cat)
    (hf : found = true ↔ ∃ w, DictWordAt env (c :: cs) w)
    (h : unkEdges env.charDefs env.unk start (c :: cs) found ue cat ord = .ok (new, ue')) (i : Nat) (e : Edge) :
    new[i]? = some e ↔ ∃ s ids id w, Proposes env (c :: cs) cat ord s ∧ env.unk.lookupWordIds cat = .ok ids ∧ ids[i]? = some id ∧ env.unk.wordEntry id = .ok w ∧
      e = wordEdge .unknown w start s := by
  unfold unkEdges at h
  rw [bind_eq_ok] at h
  obtain ⟨n, hn, h⟩ := h
  obtain ⟨data, hd, hcase⟩ := unknownNumChars_spec hn
  have hinv : (data.invoke || !found) = true ↔ (data.invoke = true ∨ ¬ ∃ w, DictWordAt env (c :: cs) w) := by
    rw [← hf]; simp
  rcases hcase with ⟨hi, hpos, htake⟩ | ⟨hi, h0⟩
  · rw [if_pos hpos] at h
    rw [bind_eq_ok] at h
    obtain ⟨ids, hids, h⟩ := h
    rw [bind_eq_ok] at h
    obtain ⟨new', hnew, h⟩ := h
    simp at h
    obtain ⟨rfl, rfl⟩ := h
    rw [htake] at hnew
    have hp : Proposes env (c :: cs) cat ord (unknownText env.charDefs cat ord data.group (c :: cs)) := ⟨c, cs, cats, data, rfl, hc, hcat, hd, hinv.mp hi, rfl⟩
    rw [mapM_ok_iff] at hnew
    constructor
    · intro he
      obtain ⟨hl, he⟩ := List.getElem?_eq_some_iff.mp he
      have := List.Forall₂.get hnew (i := i) (by rw [hnew.length_eq]; exact hl) hl
      simp only [bind_eq_ok, pure_eq_ok, Except.ok.injEq, List.get_eq_getElem] at this
      obtain ⟨w, hw, hx⟩ := this
      exact ⟨_, ids, _, w, hp, hids, List.getElem?_eq_getElem (by rw [hnew.length_eq]; exact hl), hw, by rw [← he, ← hx]⟩
    · rintro ⟨s, ids', id, w, hp', hids', hid, hw, rfl⟩
      rw [hids] at hids'
      cases hids'
      have := Model.Proposes.text_unique hp hp'
      subst this
      obtain ⟨hl, hid⟩ := List.getElem?_eq_some_iff.mp hid
      have := List.Forall₂.get hnew (i := i) hl (by rw [← hnew.length_eq]; exact hl)
      simp only [bind_eq_ok, pure_eq_ok, Except.ok.injEq, List.get_eq_getElem] at this
      obtain ⟨w', hw', hx⟩ := this
      rw [hid, hw] at hw'
      cases hw'
      rw [hx]
      exact List.getElem?_eq_getElem _
  · rw [if_neg (by omega)] at h
    simp at h
    rw [h.1]
    simp only [List.getElem?_nil, reduceCtorEq, false_iff]
    rintro ⟨s, ids, id, w, ⟨c', cs', cats', data', heq, hc', hcat', hd', hor, _⟩, -⟩
    rw [hd] at hd'
    cases hd'
    rw [hinv.mpr hor] at hi
    cases hi

/-- The edges for unknown words come in the order of the categories and their entries. -/
theorem allUnkEdges_tags {env : LatticeEnv} {start : Nat} {suffix : Str} {found : Bool} {ue ue' : Option Nat} {new : List Edge}
    (hf : found = true ↔ ∃ w, DictWordAt env suffix w) (h : allUnkEdges env start suffix found ue = .ok (new, ue')) :
    ∃ ts : List (Edge × Nat × Nat), ts.map (·.1) = new ∧
      (∀ x, x ∈ ts ↔ ∃ cat s ids id w, Proposes env suffix cat x.2.1 s ∧ env.unk.lookupWordIds cat = .ok ids ∧ ids[x.2.2]? = some id ∧ env.unk.wordEntry id = .ok w ∧
        x.1 = wordEdge .unknown w start s) ∧
      ts.Pairwise fun x y => x.2.1 < y.2.1 ∨ (x.2.1 = y.2.1 ∧ x.2.2 ≤ y.2.2) := by
  cases suffix with
  | nil =>
    simp [allUnkEdges] at h
    obtain ⟨rfl, rfl⟩ := h
    refine ⟨[], rfl, ?_, .nil⟩
    intro x
    simp only [List.not_mem_nil, false_iff]
    rintro ⟨_, _, _, _, _, ⟨c, cs, _, _, h, _⟩, _⟩
    cases h
  | cons c cs =>
    unfold allUnkEdges at h
    simp only at h
    rw [bind_eq_ok] at h
    obtain ⟨cats, hc, h⟩ := h
    have hprop_ord : ∀ cat ord s, Proposes env (c :: cs) cat ord s → cats[ord]? = some cat := by
      rintro cat ord s ⟨c', cs', cats', data, heq, hc', hcat, _⟩
      cases heq
      rw [hc] at hc'
      cases hc'
      exact hcat
    have key := foldlM_inv
      (f := fun (st : List Edge × Option Nat) (cat : Nat × Nat) => do
        let r ← unkEdges env.charDefs env.unk start (c :: cs) found st.2 cat.1 cat.2
        return (st.1 ++ r.1, r.2))
      (fun (todo : List (Nat × Nat)) (st : List Edge × Option Nat) =>
        ∃ k, k ≤ cats.length ∧ todo = (cats.drop k).zipIdx k ∧
          ∃ ts : List (Edge × Nat × Nat), ts.map (·.1) = st.1 ∧
            (∀ x, x ∈ ts ↔ x.2.1 < k ∧ ∃ cat s ids id w, Proposes env (c :: cs) cat x.2.1 s ∧ env.unk.lookupWordIds cat = .ok ids ∧ ids[x.2.2]? = some id ∧
              env.unk.wordEntry id = .ok w ∧ x.1 = wordEdge .unknown w start s) ∧
            ts.Pairwise fun x y => x.2.1 < y.2.1 ∨ (x.2.1 = y.2.1 ∧ x.2.2 ≤ y.2.2))
      (by
        rintro ⟨cat, ord⟩ rest ⟨acc, u⟩ ⟨acc', u'⟩ ⟨k, hk, htodo, ts, ht1, ht2, ht3⟩ hstep
        cases hdrop : cats.drop k with
        | nil => rw [hdrop] at htodo; simp at htodo
        | cons x xs =>
          rw [hdrop, List.zipIdx_cons] at htodo
          simp only [List.cons.injEq, Prod.mk.injEq] at htodo
          obtain ⟨⟨rfl, rfl⟩, rfl⟩ := htodo
          have hlt : ord < cats.length := by
            by_contra hge
            rw [List.drop_eq_nil_of_le (by omega)] at hdrop; cases hdrop
          have hget : cats[ord]? = some cat := by
            have : (cats.drop ord)[0]? = some cat := by rw [hdrop]; rfl
            simpa using this
          have hxs : xs = cats.drop (ord + 1) := by
            rw [← List.drop_drop, hdrop]; rfl
          rw [bind_eq_ok] at hstep
          obtain ⟨⟨new1, u1⟩, h1, h2⟩ := hstep
          simp at h2
          obtain ⟨rfl, rfl⟩ := h2
          have hs := unkEdges_get hc hget hf h1
          refine ⟨ord + 1, by omega, by rw [hxs], ts ++ new1.zipIdx.map (fun x => (x.1, ord, x.2)), ?_, ?_, ?_⟩
          · simp only [List.map_append, ht1, List.map_map]
            congr 1
            exact List.zipIdx_map_fst 0 new1
          · rintro ⟨e, r, i⟩
            rw [List.mem_append, ht2]
            simp only [List.mem_map, Prod.mk.injEq]
            constructor
            · rintro (⟨h3, h4⟩ | ⟨⟨e', i'⟩, h3, h4, h5, h6⟩)
              · exact ⟨by omega, h4⟩
              · simp only at h4 h6
                subst h4 h5 h6
                rw [List.mem_zipIdx_iff_getElem?, hs] at h3
                exact ⟨by omega, cat, h3⟩
            · rintro ⟨h3, cat', h4⟩
              by_cases hr : r < ord
              · exact .inl ⟨hr, cat', h4⟩
              · have : r = ord := by omega
                subst this
                obtain ⟨s, ids, id, w, hp, h5⟩ := h4
                have : cat' = cat := by have := hprop_ord _ _ _ hp; rw [hget] at this; cases this; rfl
                subst this
                exact .inr ⟨(e, i), by rw [List.mem_zipIdx_iff_getElem?, hs]; exact ⟨s, ids, id, w, hp, h5⟩, rfl, rfl, rfl⟩
          · rw [List.pairwise_append]
            refine ⟨ht3, ?_, ?_⟩
            · rw [List.pairwise_map]
              have : (new1.zipIdx.map (·.2)).Pairwise (· < ·) := by
                rw [List.zipIdx_eq_zip_range', List.map_snd_zip (by simp)]
                exact List.pairwise_lt_range'
              rw [List.pairwise_map] at this
              refine this.imp ?_
              intro a b h
              exact .inr ⟨rfl, Nat.le_of_lt h⟩
            · intro x hx y hy
              obtain ⟨z, -, rfl⟩ := List.mem_map.mp hy
              exact .inl ((ht2 x).mp hx).1)
      cats.zipIdx ([], ue) (new, ue')
      ⟨0, by omega, by simp, [], rfl, by simp, .nil⟩ h
    obtain ⟨k, hk, htodo, ts, ht1, ht2, ht3⟩ := key
    have hkl : cats.length ≤ k := by
      by_contra hge
      have := congrArg List.length htodo
      simp at this
      omega
    refine ⟨ts, ht1, fun x => ?_, ht3⟩
    rw [ht2]
    constructor
    · exact fun h => h.2
    · rintro ⟨cat, s, ids, id, w, hp, h⟩
      refine ⟨?_, cat, s, ids, id, w, hp, h⟩
      have := (List.getElem?_eq_some_iff.mp (hprop_ord _ _ _ hp)).1
      omega

/-! ### All edges -/

/-- The type of the edge for a word written at this place. -/
def _root_.Verif.Spec.Slot.type : Slot → EdgeType
  | .known _ => .known
  | .unknown _ _ => .unknown

theorem WrittenAt.typed {env : LatticeEnv} {rest : Str} {k : Nat} {latest : Option Nat} {w : Word} {p : Slot} (h : WrittenAt env rest k latest w p) :
    TypedWordAt env rest k latest p.type w := by
  cases p with
  | known i =>
    obtain ⟨h1, h2, es, ⟨us, ss, hu, hs, rfl⟩, hi⟩ := h
    refine .inl ⟨rfl, h1, h2, ?_⟩
    rcases List.mem_append.mp (List.mem_of_getElem? hi) with hm | hm
    · rcases hu with ⟨-, rfl⟩ | ⟨u, hu, hf⟩
      · cases hm
      · exact .inl ⟨u, hu, us, hf, hm⟩
    · exact .inr ⟨ss, hs, hm⟩
  | unknown r i =>
    obtain ⟨ho, cat, ids, id, hp, hids, hid, hw⟩ := h
    exact .inr ⟨rfl, ho, cat, r, ids, id, hp, hids, List.mem_of_getElem? hid, hw⟩

/-- The edges found at one position come in the order of the places. -/
theorem newEdges_tags {env : LatticeEnv} {start : Nat} {suffix : Str} {ue ue' : Option Nat} {new : List Edge} (h : newEdges env start suffix ue = .ok (new, ue')) :
    ∃ ts : List (Edge × Slot), ts.map (·.1) = new ∧
      (∀ x, x ∈ ts ↔ ∃ w, WrittenAt env suffix start ue w x.2 ∧ x.1 = wordEdge x.2.type w.entry start w.surface) ∧
      ts.Pairwise fun x y => x.1.stopIndex = y.1.stopIndex → x.2.le y.2 := by
  unfold newEdges at h
  rw [bind_eq_ok] at h
  obtain ⟨us, hus, h⟩ := h
  rw [bind_eq_ok] at h
  obtain ⟨ss, hss, h⟩ := h
  -- the entries of the user dictionary for a surface
  have hu : ∃ find : Str → List WordEntry, (∀ s, s ≠ [] → s <+: suffix → (env.userDict = none ∧ find s = []) ∨ ∃ u, env.userDict = some u ∧ u.findSurface s = .ok (find s)) ∧
      ∃ ts : List (Edge × Nat), ts.map (·.1) = us ∧
      (∀ x, x ∈ ts ↔ ∃ s e, s ≠ [] ∧ s <+: suffix ∧ (find s)[x.2]? = some e ∧ x.1 = wordEdge .known e start s) ∧
      ts.Pairwise fun x y => x.1.stopIndex = y.1.stopIndex → x.2 ≤ y.2 := by
    unfold userEdges at hus
    cases hd : env.userDict with
    | none =>
      rw [hd] at hus
      cases hus
      exact ⟨fun _ => [], fun _ _ _ => .inl ⟨rfl, rfl⟩, [], rfl, by simp, .nil⟩
    | some d =>
      rw [hd] at hus
      obtain ⟨ts, h1, h2, h3⟩ := dictEdges_tags hus
      refine ⟨fun s => (d.findSurface s).toOption.getD [], fun s hne hpre => ?_, ts, h1, fun x => ?_, h3⟩
      · obtain ⟨es, hes⟩ := dictEdges_find hus hne hpre
        exact .inr ⟨d, rfl, by dsimp only; rw [hes]; rfl⟩
      · rw [h2]
        dsimp only
        constructor
        · rintro ⟨s, es, e, h4, h5, h6, h7⟩
          exact ⟨s, e, h4, h5, by rw [h6]; exact h7⟩
        · rintro ⟨s, e, h4, h5, h6⟩
          obtain ⟨es, hes⟩ := dictEdges_find hus h4 h5
          rw [hes] at h6
          exact ⟨s, es, e, h4, h5, hes, h6⟩
  obtain ⟨find, hfind, tu, hu1, hu2, hu3⟩ := hu
  obtain ⟨tsys, hs1, hs2, hs3⟩ := dictEdges_tags hss
  -- the surface of an edge, read off its end
  have hsurf : ∀ {s s' : Str} , s <+: suffix → s' <+: suffix → start + blen s = start + blen s' → s = s' := by
    rintro s s' ⟨t, ht⟩ ⟨t', ht'⟩ hb
    exact (prefix_unique (ht.trans ht'.symm) (by omega)).1
  -- the places of the system words
  have hsys : ∃ ts : List (Edge × Slot), ts.map (·.1) = ss ∧
      (∀ x, x ∈ ts ↔ ∃ s es e i, s ≠ [] ∧ s <+: suffix ∧ env.dict.findSurface s = .ok es ∧ es[i]? = some e ∧ x.1 = wordEdge .known e start s ∧ x.2 = .known ((find s).length + i)) ∧
      ts.Pairwise fun x y => x.1.stopIndex = y.1.stopIndex → x.2.le y.2 := by
    refine ⟨tsys.map fun x => (x.1, .known ((find ((takeBytes suffix (x.1.stopIndex - start)).getD [])).length + x.2)), ?_, ?_, ?_⟩
    · rw [List.map_map]; exact hs1
    · have hcut : ∀ {s : Str} {e : WordEntry}, s <+: suffix → (takeBytes suffix ((wordEdge .known e start s).stopIndex - start)).getD [] = s := by
        rintro s e ⟨t, rfl⟩
        have : (wordEdge .known e start s).stopIndex - start = blen s := by simp [wordEdge]
        rw [this, takeBytes_append]; rfl
      rintro ⟨e, p⟩
      simp only [List.mem_map, Prod.mk.injEq]
      constructor
      · rintro ⟨⟨e', i⟩, h1, rfl, rfl⟩
        obtain ⟨s, es, w, h2, h3, h4, h5, h6⟩ := (hs2 _).mp h1
        simp only at h6
        subst h6
        exact ⟨s, es, w, i, h2, h3, h4, h5, rfl, by rw [hcut h3]⟩
      · rintro ⟨s, es, w, i, h2, h3, h4, h5, rfl, rfl⟩
        exact ⟨(wordEdge .known w start s, i), (hs2 _).mpr ⟨s, es, w, h2, h3, h4, h5, rfl⟩, rfl, by dsimp only; rw [hcut h3]⟩
    · rw [List.pairwise_map]
      refine hs3.imp ?_
      intro x y hxy hst
      simp only at hst ⊢
      rw [hst]
      simp only [Slot.le]
      have := hxy hst
      omega
  obtain ⟨ts, ht1, ht2, ht3⟩ := hsys
  -- both
  have hknown : ∃ tk : List (Edge × Slot), tk.map (·.1) = us ++ ss ∧
      (∀ x, x ∈ tk ↔ ∃ w i, x.2 = .known i ∧ WrittenAt env suffix start ue w (.known i) ∧ x.1 = wordEdge .known w.entry start w.surface) ∧
      tk.Pairwise fun x y => x.1.stopIndex = y.1.stopIndex → x.2.le y.2 := by
    refine ⟨tu.map (fun x => (x.1, .known x.2)) ++ ts, ?_, ?_, ?_⟩
    · rw [List.map_append, List.map_map, ht1]
      congr 1
    · rintro ⟨e, p⟩
      rw [List.mem_append, ht2]
      simp only [List.mem_map, Prod.mk.injEq]
      constructor
      · rintro (⟨⟨e', i⟩, h1, rfl, rfl⟩ | ⟨s, es, w, i, h1, h2, h3, h4, rfl, rfl⟩)
        · obtain ⟨s, w, h2, h3, h4, h5⟩ := (hu2 _).mp h1
          obtain ⟨es, hes⟩ := dictEdges_find hss h2 h3
          refine ⟨⟨s, w⟩, i, rfl, ⟨h2, h3, find s ++ es, ⟨find s, es, hfind s h2 h3, hes, rfl⟩, ?_⟩, h5⟩
          rw [List.getElem?_append_left (List.getElem?_eq_some_iff.mp h4).1]
          exact h4
        · refine ⟨⟨s, w⟩, _, rfl, ⟨h1, h2, find s ++ es, ⟨find s, es, hfind s h1 h2, h3, rfl⟩, ?_⟩, rfl⟩
          rw [List.getElem?_append_right (by omega)]
          simpa using h4
      · rintro ⟨⟨s, w⟩, i, rfl, ⟨h1, h2, es, ⟨us', ss', h3, h4, rfl⟩, h5⟩, rfl⟩
        simp only at h1 h2 h3 h4 h5
        have hus' : us' = find s := by
          rcases hfind s h1 h2 with ⟨h6, h7⟩ | ⟨u, h6, h7⟩
          · rcases h3 with ⟨-, rfl⟩ | ⟨u, h8, -⟩
            · exact h7.symm
            · rw [h6] at h8; cases h8
          · rcases h3 with ⟨h8, -⟩ | ⟨u', h8, h9⟩
            · rw [h6] at h8; cases h8
            · rw [h6] at h8; cases h8
              rw [h7] at h9; cases h9; rfl
        subst hus'
        by_cases hlt : i < (find s).length
        · rw [List.getElem?_append_left hlt] at h5
          exact .inl ⟨(_, i), (hu2 _).mpr ⟨s, w, h1, h2, h5, rfl⟩, rfl, rfl⟩
        · rw [List.getElem?_append_right (by omega)] at h5
          exact .inr ⟨s, ss', w, i - (find s).length, h1, h2, h4, h5, rfl, by congr 1; omega⟩
    · rw [List.pairwise_append]
      refine ⟨?_, ht3, ?_⟩
      · rw [List.pairwise_map]
        exact hu3
      · intro x hx y hy hst
        obtain ⟨⟨e, i⟩, hx', rfl⟩ := List.mem_map.mp hx
        obtain ⟨s, w, h1, h2, h3, h4⟩ := (hu2 _).mp hx'
        obtain ⟨s', es, w', i', h5, h6, h7, h8, h9, h10⟩ := (ht2 _).mp hy
        simp only at h3 h4 hst ⊢
        rw [h4, h9] at hst
        have := hsurf h2 h6 hst
        subst this
        rw [h10]
        simp only [Slot.le]
        have := (List.getElem?_eq_some_iff.mp h3).1
        omega
  obtain ⟨tk, hk1, hk2, hk3⟩ := hknown
  split at h
  · rename_i hopen
    rw [unknownAllowed_iff] at hopen
    rw [bind_eq_ok] at h
    obtain ⟨⟨un, ue1⟩, hun, h⟩ := h
    simp only [pure_eq_ok, Except.ok.injEq, Prod.mk.injEq] at h
    obtain ⟨rfl, rfl⟩ := h
    obtain ⟨tun, hn1, hn2, hn3⟩ := allUnkEdges_tags (found_iff hus hss) hun
    refine ⟨tk ++ tun.map (fun x => (x.1, .unknown x.2.1 x.2.2)), ?_, ?_, ?_⟩
    · rw [List.map_append, List.map_map, hk1, ← hn1]
      congr 1
    · rintro ⟨e, p⟩
      rw [List.mem_append, hk2]
      simp only [List.mem_map, Prod.mk.injEq]
      constructor
      · rintro (⟨w, i, rfl, h1, h2⟩ | ⟨⟨e', r, i⟩, h1, rfl, rfl⟩)
        · exact ⟨w, h1, h2⟩
        · obtain ⟨cat, s, ids, id, w, h2, h3, h4, h5, h6⟩ := (hn2 _).mp h1
          exact ⟨⟨s, w⟩, ⟨hopen, cat, ids, id, h2, h3, h4, h5⟩, h6⟩
      · rintro ⟨w, h1, h2⟩
        cases p with
        | known i => exact .inl ⟨w, i, rfl, h1, h2⟩
        | unknown r i =>
          obtain ⟨-, cat, ids, id, h3, h4, h5, h6⟩ := h1
          exact .inr ⟨(e, r, i), (hn2 _).mpr ⟨cat, w.surface, ids, id, w.entry, h3, h4, h5, h6, h2⟩, rfl, rfl⟩
    · rw [List.pairwise_append]
      refine ⟨hk3, ?_, ?_⟩
      · rw [List.pairwise_map]
        refine hn3.imp ?_
        intro a b h _
        exact h
      · intro x hx y hy _
        obtain ⟨w, i, h1, -⟩ := (hk2 _).mp hx
        obtain ⟨z, -, rfl⟩ := List.mem_map.mp hy
        rw [h1]
        exact trivial
  · rename_i hopen
    rw [unknownAllowed_iff] at hopen
    simp at h
    obtain ⟨rfl, rfl⟩ := h
    refine ⟨tk, hk1, ?_, hk3⟩
    rintro ⟨e, p⟩
    rw [hk2]
    constructor
    · rintro ⟨w, i, rfl, h1, h2⟩
      exact ⟨w, h1, h2⟩
    · rintro ⟨w, h1, h2⟩
      cases p with
      | known i => exact ⟨w, i, rfl, h1, h2⟩
      | unknown r i => exact absurd h1.1 hopen

theorem newEdges_listed {env : LatticeEnv} {start : Nat} {suffix : Str} {ue ue' : Option Nat} {new : List Edge} (h : newEdges env start suffix ue = .ok (new, ue'))
    {s : Str} (hne : s ≠ []) (hpre : s <+: suffix) : ∃ es, EntriesFor env s es := by
  unfold newEdges at h
  rw [bind_eq_ok] at h
  obtain ⟨us, hus, h⟩ := h
  rw [bind_eq_ok] at h
  obtain ⟨ss, hss, -⟩ := h
  obtain ⟨es, hes⟩ := dictEdges_find hss hne hpre
  unfold userEdges at hus
  cases hd : env.userDict with
  | none => exact ⟨_, [], es, .inl ⟨hd, rfl⟩, hes, rfl⟩
  | some d =>
    rw [hd] at hus
    obtain ⟨es', hes'⟩ := dictEdges_find hus hne hpre
    exact ⟨_, es', es, .inr ⟨d, hd, hes'⟩, hes, rfl⟩

/-- The edges, with the places they come from. -/
structure Tagged (env : LatticeEnv) (text : Str) (k : Nat) (es : List Edge) (ts : List (Edge × Slot)) : Prop where
  edges : ts.map (·.1) = es
  sound : ∀ x ∈ ts, ∃ pre rest reach latest w, text = pre ++ rest ∧ Scan env text (blen pre) reach latest ∧ WrittenAt env rest (blen pre) latest w x.2 ∧
    x.1 = wordEdge x.2.type w.entry (blen pre) w.surface
  complete : ∀ pre rest reach latest w p, blen pre < k → text = pre ++ rest → reached es (blen pre) = true → Scan env text (blen pre) reach latest →
    WrittenAt env rest (blen pre) latest w p → (wordEdge p.type w.entry (blen pre) w.surface, p) ∈ ts
  sorted : ts.Pairwise fun x y => x.1.startIndex ≤ y.1.startIndex ∧ (x.1.startIndex = y.1.startIndex → x.1.stopIndex = y.1.stopIndex → x.2.le y.2)
  listed : ∀ pre rest s, blen pre < k → text = pre ++ rest → reached es (blen pre) = true → s ≠ [] → s <+: rest → ∃ es, EntriesFor env s es

theorem gen_tagged {env : LatticeEnv} {text : Str} {es : List Edge} (h : gen env text = .ok es) : ∃ ts, Tagged env text (blen text) es ts := by
  unfold gen at h
  rw [bind_eq_ok] at h
  obtain ⟨⟨es', ue⟩, hf, h⟩ := h
  simp at h
  subst h
  have := foldlM_range_inv (blen text) (fun k st => ScanInv env text k st.1 st.2 ∧ ∃ ts, Tagged env text k st.1 ts)
    (by
      rintro k ⟨a, b⟩ ⟨a', b'⟩ _ ⟨hI, ts, hT⟩ hf
      have hI' := genStep_inv hI hf
      refine ⟨hI', ?_⟩
      obtain ⟨reach, hscan, hreach⟩ := hI.scan
      unfold genStep at hf
      simp only at hf
      split at hf
      · rename_i hk
        rw [bind_eq_ok] at hf
        obtain ⟨suffix, hs, hf⟩ := hf
        rw [orPanic_eq_ok] at hs
        obtain ⟨pre, ht, hb⟩ := dropBytes_eq_some.mp hs
        rw [bind_eq_ok] at hf
        obtain ⟨⟨new, ue1⟩, hnew, hf⟩ := hf
        simp at hf
        obtain ⟨rfl, rfl⟩ := hf
        obtain ⟨tn, hn1, hn2, hn3⟩ := newEdges_tags hnew
        have hback : ∀ p, p ≤ k → reached (a ++ new) p = true → reached a p = true := by
          intro p hp hr
          rw [reached_append] at hr
          rcases hr with hr | ⟨e, he, hr⟩
          · exact hr
          · obtain ⟨hmem, -⟩ := newEdges_spec hnew
            obtain ⟨t, w', hw', rfl⟩ := (hmem e).mp he
            have := blen_pos hw'.wordAt.ne.1
            simp only [wordEdge] at hr
            omega
        refine ⟨ts ++ tn, ?_, ?_, ?_, ?_, ?_⟩
        · rw [List.map_append, hT.edges, hn1]
        · intro x hx
          rcases List.mem_append.mp hx with hx | hx
          · exact hT.sound x hx
          · obtain ⟨w, h1, h2⟩ := (hn2 x).mp hx
            subst hb
            exact ⟨pre, suffix, reach, b, w, ht, hscan, h1, h2⟩
        · intro pre' rest' reach' latest' w p hlt hto hr hsc hw
          by_cases hlt' : blen pre' < k
          · refine List.mem_append_left _ (hT.complete pre' rest' reach' latest' w p hlt' hto (hback _ (by omega) hr) hsc hw)
          · have hbk : blen pre' = k := by omega
            obtain ⟨rfl, rfl⟩ := prefix_unique (ht.symm.trans hto) (hb.trans hbk.symm)
            rw [hbk] at hsc hw ⊢
            obtain ⟨rfl, _⟩ := hscan.unique hsc
            exact List.mem_append_right _ ((hn2 _).mpr ⟨w, hw, rfl⟩)
        · rw [List.pairwise_append]
          refine ⟨hT.sorted, ?_, ?_⟩
          · refine hn3.imp_of_mem ?_
            intro x y hx hy hxy
            obtain ⟨w, -, h1⟩ := (hn2 x).mp hx
            obtain ⟨w', -, h2⟩ := (hn2 y).mp hy
            refine ⟨by rw [h1, h2]; simp [wordEdge], fun _ => hxy⟩
          intro x hx y hy
          have hxm : x.1 ∈ a := by
            have := hT.edges
            simp only at this
            rw [← this]
            exact List.mem_map.mpr ⟨x, hx, rfl⟩
          have h1 := (hI.sound _ hxm).1
          obtain ⟨w, -, h2⟩ := (hn2 y).mp hy
          have h3 : y.1.startIndex = k := by rw [h2]; rfl
          exact ⟨by omega, fun _ => by omega⟩
        · intro pre' rest' s' hlt hto hr hne hpre
          by_cases hlt' : blen pre' < k
          · exact hT.listed pre' rest' s' hlt' hto (hback _ (by omega) hr) hne hpre
          · obtain ⟨rfl, rfl⟩ := prefix_unique (ht.symm.trans hto) (hb.trans (by omega))
            exact newEdges_listed hnew hne hpre
      · rename_i hk
        simp at hf
        obtain ⟨rfl, rfl⟩ := hf
        have hlt' : ∀ p, p < k + 1 → reached a p = true → p < k := by
          intro p hp hr
          by_contra hge
          have : p = k := by omega
          rw [this] at hr
          exact hk hr
        refine ⟨ts, hT.edges, hT.sound, ?_, hT.sorted, fun pre rest s hlt hto hr => hT.listed pre rest s (hlt' _ hlt hr) hto hr⟩
        intro pre rest reach' latest w p hlt hto hr hsc hw
        exact hT.complete pre rest reach' latest w p (hlt' _ hlt hr) hto hr hsc hw)
    ([], none) (es', ue)
    ⟨⟨⟨_, .start, by simp [reached]⟩, by simp, by simp, by simp⟩, [], rfl, by simp, by intro _ _ _ _ _ _ h; omega, .nil, by intro _ _ _ h; omega⟩ hf
  exact this.2

end Verif.Model
