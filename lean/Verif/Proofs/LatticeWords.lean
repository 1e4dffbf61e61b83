import Verif.Spec.Segmentation
import Verif.Proofs.LatticeGen
/-! The edges found by the scan are exactly the usable words of the specification. -/
namespace Verif.Model
open Verif.Spec

/-! ### Dictionary words -/

theorem mem_commonPrefixSearch {da : DoubleArray} {s : List UInt8} {v : UInt32} {n : Nat} :
    (v, n) ∈ da.commonPrefixSearch s ↔ 0 < n ∧ n ≤ s.length ∧ da.exactMatch (s.take n) = some v := by
  unfold DoubleArray.commonPrefixSearch
  simp only [List.mem_filterMap, List.mem_range, Option.map_eq_some_iff, Prod.mk.injEq]
  constructor
  · rintro ⟨i, hi, v', hv, rfl, rfl⟩
    exact ⟨by omega, by omega, hv⟩
  · rintro ⟨h0, hn, hv⟩
    refine ⟨n - 1, by omega, v, ?_, rfl, by omega⟩
    rw [show n - 1 + 1 = n by omega]; exact hv

theorem mem_prefix {d : PrefixDict} {s : Str} {ws : List (Nat × WordEntry)} (h : d.prefix s = .ok ws)
    {n : Nat} {w : WordEntry} :
    (n, w) ∈ ws ↔ ∃ v es, 0 < n ∧ n ≤ blen s ∧ d.da.exactMatch ((utf8 s).take n) = some v ∧
      d.entriesAt v = .ok es ∧ w ∈ es := by
  unfold PrefixDict.prefix at h
  rw [bind_eq_ok] at h
  obtain ⟨groups, hg, h⟩ := h
  simp at h
  subst h
  rw [List.mem_flatten]
  constructor
  · rintro ⟨g, hgm, hw⟩
    obtain ⟨⟨v, n'⟩, hx, hf⟩ := mem_of_mapM_ok hg hgm
    simp only [bind_eq_ok] at hf
    obtain ⟨es, hes, hf⟩ := hf
    simp at hf
    subst hf
    simp only [List.mem_map, Prod.mk.injEq] at hw
    obtain ⟨w', hw', rfl, rfl⟩ := hw
    obtain ⟨h1, h2, h3⟩ := mem_commonPrefixSearch.mp hx
    rw [length_utf8] at h2
    exact ⟨v, es, h1, h2, h3, hes, hw'⟩
  · rintro ⟨v, es, h1, h2, h3, hes, hw⟩
    have hx : (v, n) ∈ d.da.commonPrefixSearch (utf8 s) :=
      mem_commonPrefixSearch.mpr ⟨h1, by rw [length_utf8]; exact h2, h3⟩
    obtain ⟨g, hgm, hf⟩ := mem_mapM_ok hg hx
    simp only [bind_eq_ok] at hf
    obtain ⟨es', hes', hf⟩ := hf
    rw [hes] at hes'
    cases hes'
    simp at hf
    subst hf
    exact ⟨_, hgm, by simp [hw]⟩

theorem utf8_take_of_prefix {a s : Str} (h : a <+: s) : (utf8 s).take (blen a) = utf8 a := by
  obtain ⟨t, rfl⟩ := h
  rw [utf8_append, ← length_utf8 a, List.take_left]

theorem findSurface_mem {d : PrefixDict} {surface : Str} {w : WordEntry} :
    InDict d surface w ↔ ∃ v es, d.da.exactMatch (utf8 surface) = some v ∧ d.entriesAt v = .ok es ∧ w ∈ es := by
  unfold InDict PrefixDict.findSurface
  cases d.da.exactMatch (utf8 surface) with
  | none => simp
  | some v => simp

theorem mem_dictEdges {d : PrefixDict} {start : Nat} {suffix : Str} {new : List Edge}
    (h : dictEdges d start suffix = .ok new) {e : Edge} :
    e ∈ new ↔ ∃ w : Word, w.surface ≠ [] ∧ w.surface <+: suffix ∧ InDict d w.surface w.entry ∧
      e = wordEdge .known w.entry start w.surface := by
  unfold dictEdges at h
  rw [bind_eq_ok] at h
  obtain ⟨ws, hws, h⟩ := h
  constructor
  · intro he
    obtain ⟨⟨n, w⟩, hx, hf⟩ := mem_of_mapM_ok h he
    simp only [bind_eq_ok, orPanic_eq_ok] at hf
    obtain ⟨surface, hs, hf⟩ := hf
    simp at hf
    obtain ⟨r, hr, hb⟩ := takeBytes_eq_some.mp hs
    obtain ⟨v, es, h1, h2, h3, h4, h5⟩ := (mem_prefix hws).mp hx
    have hpre : surface <+: suffix := ⟨r, hr.symm⟩
    refine ⟨⟨surface, w⟩, ?_, hpre, ?_, hf.symm⟩
    · intro h0
      simp only at h0
      simp [h0] at hb
      omega
    · rw [← hb, utf8_take_of_prefix hpre] at h3
      exact findSurface_mem.mpr ⟨v, es, h3, h4, h5⟩
  · rintro ⟨⟨surface, w⟩, hne, hpre, hin, rfl⟩
    simp only at hne hpre hin ⊢
    obtain ⟨v, es, h3, h4, h5⟩ := findSurface_mem.mp hin
    have hx : (blen surface, w) ∈ ws := by
      rw [mem_prefix hws]
      refine ⟨v, es, blen_pos hne, ?_, ?_, h4, h5⟩
      · obtain ⟨t, rfl⟩ := hpre; simp
      · rw [utf8_take_of_prefix hpre]; exact h3
    obtain ⟨y, hy, hf⟩ := mem_mapM_ok h hx
    simp only [bind_eq_ok, orPanic_eq_ok] at hf
    obtain ⟨s', hs', hf⟩ := hf
    simp at hf
    obtain ⟨t, ht⟩ := hpre
    have : takeBytes suffix (blen surface) = some surface := by rw [← ht]; exact takeBytes_append _ _
    rw [this] at hs'
    cases hs'
    rw [hf]; exact hy

theorem mem_userSysEdges {env : LatticeEnv} {start : Nat} {suffix : Str} {us ss : List Edge}
    (hu : userEdges env start suffix = .ok us) (hs : dictEdges env.dict start suffix = .ok ss) {e : Edge} :
    e ∈ us ++ ss ↔ ∃ w : Word, DictWordAt env suffix w ∧ e = wordEdge .known w.entry start w.surface := by
  rw [List.mem_append, mem_dictEdges hs]
  have hu' : e ∈ us ↔ ∃ w : Word, w.surface ≠ [] ∧ w.surface <+: suffix ∧
      (∃ u, env.userDict = some u ∧ InDict u w.surface w.entry) ∧
      e = wordEdge .known w.entry start w.surface := by
    unfold userEdges at hu
    cases hd : env.userDict with
    | none => rw [hd] at hu; simp at hu; subst hu; simp
    | some d =>
      rw [hd] at hu
      rw [mem_dictEdges hu]
      simp
  rw [hu']
  unfold DictWordAt
  constructor
  · rintro (⟨w, h1, h2, h3, h4⟩ | ⟨w, h1, h2, h3, h4⟩)
    · exact ⟨w, ⟨h1, h2, .inl h3⟩, h4⟩
    · exact ⟨w, ⟨h1, h2, .inr h3⟩, h4⟩
  · rintro ⟨w, ⟨h1, h2, h3 | h3⟩, h4⟩
    · exact .inl ⟨w, h1, h2, h3, h4⟩
    · exact .inr ⟨w, h1, h2, h3, h4⟩

theorem found_iff {env : LatticeEnv} {start : Nat} {suffix : Str} {us ss : List Edge}
    (hu : userEdges env start suffix = .ok us) (hs : dictEdges env.dict start suffix = .ok ss) :
    (!(us ++ ss).isEmpty) = true ↔ ∃ w, DictWordAt env suffix w := by
  constructor
  · intro h
    have hne : us ++ ss ≠ [] := by
      intro h0; rw [h0] at h; simp at h
    obtain ⟨e, he⟩ := List.exists_mem_of_ne_nil _ hne
    obtain ⟨w, hw, _⟩ := (mem_userSysEdges hu hs).mp he
    exact ⟨w, hw⟩
  · rintro ⟨w, hw⟩
    have : wordEdge .known w.entry start w.surface ∈ us ++ ss :=
      (mem_userSysEdges hu hs).mpr ⟨w, hw, rfl⟩
    cases hus : us ++ ss with
    | nil => rw [hus] at this; simp at this
    | cons a b => simp

/-! ### Unknown words -/

theorem countGroup_take {cd : CharDefs} {cat ord n : Nat} {cs : Str}
    (h : countGroup cd cat ord cs = .ok n) : cs.take n = cs.takeWhile (hasCategory cd cat ord) := by
  induction cs generalizing n with
  | nil => simp
  | cons c cs ih =>
    unfold countGroup at h
    rw [bind_eq_ok] at h
    obtain ⟨cats, hc, h⟩ := h
    split at h
    · rename_i hcat
      rw [bind_eq_ok] at h
      obtain ⟨n', hn', h⟩ := h
      simp at h
      subst h
      have hh : hasCategory cd cat ord c = true := by simp [hasCategory, hc, hcat]
      rw [List.take_succ_cons, List.takeWhile_cons, hh, ih hn']
      rfl
    · rename_i hcat
      simp at h
      subst h
      have hh : hasCategory cd cat ord c = false := by simp [hasCategory, hc, hcat]
      rw [List.takeWhile_cons, hh]
      simp

/-- What `unknown_word_num_chars` selects. -/
theorem unknownNumChars_spec {cd : CharDefs} {cat ord n : Nat} {c : Char} {cs : Str} {found : Bool}
    (h : unknownNumChars cd cat ord (c :: cs) found = .ok n) :
    ∃ data, cd.lookupDefinition cat = .ok data ∧
      ((data.invoke || !found) = true ∧ 0 < n ∧
          (c :: cs).take n = unknownText cd cat ord data.group (c :: cs) ∨
       (data.invoke || !found) = false ∧ n = 0) := by
  unfold unknownNumChars at h
  rw [bind_eq_ok] at h
  obtain ⟨data, hd, h⟩ := h
  refine ⟨data, hd, ?_⟩
  split at h
  · rename_i hinv
    left
    refine ⟨hinv, ?_⟩
    split at h
    · rename_i hg
      rw [bind_eq_ok] at h
      obtain ⟨k, hk, h⟩ := h
      simp at h
      subst h
      refine ⟨by omega, ?_⟩
      rw [List.take_succ_cons, unknownText, hg]
      simp only [List.drop_succ_cons, List.drop_zero] at hk
      rw [countGroup_take hk]
      rfl
    · rename_i hg
      simp at h
      subst h
      refine ⟨by omega, ?_⟩
      simp at hg
      simp [unknownText, hg]
  · rename_i hinv
    simp at h
    exact .inr ⟨by simpa using hinv, h.symm⟩

theorem unkEdges_spec {env : LatticeEnv} {start : Nat} {c : Char} {cs : Str} {found : Bool}
    {ue ue' : Option Nat} {cat ord : Nat} {cats : List Nat} {new : List Edge}
    (hc : env.charDefs.lookupCategories c = .ok cats) (hcat : cats[ord]? = some cat)
    (hf : found = true ↔ ∃ w, DictWordAt env (c :: cs) w)
    (h : unkEdges env.charDefs env.unk start (c :: cs) found ue cat ord = .ok (new, ue')) :
    (∃ s, Proposes env (c :: cs) cat ord s ∧ ue' = some (start + blen s) ∧
      ∀ e, e ∈ new ↔ ∃ ids id w, env.unk.lookupWordIds cat = .ok ids ∧ id ∈ ids ∧
        env.unk.wordEntry id = .ok w ∧ e = wordEdge .unknown w start s) ∨
    ((¬ ∃ s, Proposes env (c :: cs) cat ord s) ∧ ue' = ue ∧ new = []) := by
  unfold unkEdges at h
  rw [bind_eq_ok] at h
  obtain ⟨n, hn, h⟩ := h
  obtain ⟨data, hd, hcase⟩ := unknownNumChars_spec hn
  have hinv : (data.invoke || !found) = true ↔ (data.invoke = true ∨ ¬ ∃ w, DictWordAt env (c :: cs) w) := by
    rw [← hf]; simp
  rcases hcase with ⟨hi, hpos, htake⟩ | ⟨hi, h0⟩
  · left
    rw [if_pos hpos] at h
    rw [bind_eq_ok] at h
    obtain ⟨ids, hids, h⟩ := h
    rw [bind_eq_ok] at h
    obtain ⟨new', hnew, h⟩ := h
    simp at h
    obtain ⟨rfl, rfl⟩ := h
    rw [htake] at hnew ⊢
    refine ⟨_, ⟨c, cs, cats, data, rfl, hc, hcat, hd, hinv.mp hi, rfl⟩, rfl, ?_⟩
    intro e
    constructor
    · intro he
      obtain ⟨id, hid, hx⟩ := mem_of_mapM_ok hnew he
      rw [bind_eq_ok] at hx
      obtain ⟨w, hw, hx⟩ := hx
      simp at hx
      exact ⟨ids, id, w, hids, hid, hw, hx.symm⟩
    · rintro ⟨ids', id, w, hids', hid, hw, rfl⟩
      rw [hids] at hids'
      cases hids'
      obtain ⟨y, hy, hx⟩ := mem_mapM_ok hnew hid
      rw [hw] at hx
      simp at hx
      rw [hx]; exact hy
  · right
    rw [if_neg (by omega)] at h
    simp at h
    refine ⟨?_, h.2.symm, h.1⟩
    rintro ⟨s, c', cs', cats', data', heq, hc', hcat', hd', hor, _⟩
    rw [hd] at hd'
    cases hd'
    rw [hinv.mpr hor] at hi
    cases hi

/-- The loop over the categories finds all unknown words and the last proposal. -/
theorem allUnkEdges_spec {env : LatticeEnv} {start : Nat} {suffix : Str} {found : Bool}
    {ue ue' : Option Nat} {new : List Edge}
    (hf : found = true ↔ ∃ w, DictWordAt env suffix w)
    (h : allUnkEdges env start suffix found ue = .ok (new, ue')) :
    (∀ e, e ∈ new ↔ ∃ w : Word, UnknownWordAt env suffix w ∧ e = wordEdge .unknown w.entry start w.surface) ∧
    ∃ o, LastProposal env suffix start o ∧ ue' = o.or ue := by
  cases suffix with
  | nil =>
    simp [allUnkEdges] at h
    obtain ⟨rfl, rfl⟩ := h
    have hnp : ∀ cat ord s, ¬ Proposes env [] cat ord s := by
      rintro cat ord s ⟨c, cs, _, _, h, _⟩; cases h
    refine ⟨?_, none, .inr ⟨rfl, ?_⟩, by simp⟩
    · intro e
      simp only [List.not_mem_nil, false_iff]
      rintro ⟨w, ⟨cat, ord, ids, id, hp, _⟩, _⟩
      exact hnp _ _ _ hp
    · rintro ⟨cat, ord, s, hp⟩; exact hnp _ _ _ hp
  | cons c cs =>
    unfold allUnkEdges at h
    simp only at h
    rw [bind_eq_ok] at h
    obtain ⟨cats, hc, h⟩ := h
    -- unfold what it means to propose, given the categories of the first character
    have hprop_ord : ∀ cat ord s, Proposes env (c :: cs) cat ord s → cats[ord]? = some cat := by
      rintro cat ord s ⟨c', cs', cats', data, heq, hc', hcat, _⟩
      cases heq
      rw [hc] at hc'
      cases hc'
      exact hcat
    have key := foldlM_inv
      (f := fun (st : List Edge × Option Nat) (cat : Nat × Nat) => do
        let r ← unkEdges env.charDefs env.unk start (c :: cs) found st.2 cat.1 cat.2
        return (st.1 ++ r.1, r.2))
      (fun (todo : List (Nat × Nat)) (st : List Edge × Option Nat) =>
        ∃ k, k ≤ cats.length ∧ todo = (cats.drop k).zipIdx k ∧
          (∀ e, e ∈ st.1 ↔ ∃ cat ord s ids id w, ord < k ∧ Proposes env (c :: cs) cat ord s ∧
            env.unk.lookupWordIds cat = .ok ids ∧ id ∈ ids ∧ env.unk.wordEntry id = .ok w ∧
            e = wordEdge .unknown w start s) ∧
          ((∃ cat ord s, ord < k ∧ Proposes env (c :: cs) cat ord s ∧ st.2 = some (start + blen s) ∧
              ∀ cat' ord' s', ord' < k → Proposes env (c :: cs) cat' ord' s' → ord' ≤ ord) ∨
           (st.2 = ue ∧ ¬ ∃ cat ord s, ord < k ∧ Proposes env (c :: cs) cat ord s)))
      (by
        rintro ⟨cat, ord⟩ rest ⟨acc, u⟩ ⟨acc', u'⟩ ⟨k, hk, htodo, hmem, hlast⟩ hstep
        cases hdrop : cats.drop k with
        | nil => rw [hdrop] at htodo; simp at htodo
        | cons x xs =>
          rw [hdrop, List.zipIdx_cons] at htodo
          simp only [List.cons.injEq, Prod.mk.injEq] at htodo
          obtain ⟨⟨rfl, rfl⟩, rfl⟩ := htodo
          have hlt : ord < cats.length := by
            by_contra hge
            rw [List.drop_eq_nil_of_le (by omega)] at hdrop; cases hdrop
          have hget : cats[ord]? = some cat := by
            have : (cats.drop ord)[0]? = some cat := by rw [hdrop]; rfl
            simpa using this
          have hxs : xs = cats.drop (ord + 1) := by
            rw [← List.drop_drop, hdrop]; rfl
          rw [bind_eq_ok] at hstep
          obtain ⟨⟨new1, u1⟩, h1, h2⟩ := hstep
          simp at h2
          obtain ⟨rfl, rfl⟩ := h2
          have hs := unkEdges_spec hc hget hf h1
          have hcatuniq : ∀ cat', cats[ord]? = some cat' → cat' = cat := by
            intro cat' h'; rw [hget] at h'; cases h'; rfl
          refine ⟨ord + 1, by omega, by rw [hxs], ?_, ?_⟩
          · intro e
            rw [List.mem_append, hmem]
            constructor
            · rintro (⟨cat', ord', s, ids, id, w, hlt', hrest⟩ | he)
              · exact ⟨cat', ord', s, ids, id, w, by omega, hrest⟩
              · rcases hs with ⟨s, hp, _, hmem1⟩ | ⟨_, _, hnil⟩
                · obtain ⟨ids, id, w, hids, hid, hw, heq⟩ := (hmem1 e).mp he
                  exact ⟨cat, ord, s, ids, id, w, by omega, hp, hids, hid, hw, heq⟩
                · rw [hnil] at he; simp at he
            · rintro ⟨cat', ord', s, ids, id, w, hlt', hp, hids, hid, hw, heq⟩
              by_cases hoo : ord' < ord
              · exact .inl ⟨cat', ord', s, ids, id, w, hoo, hp, hids, hid, hw, heq⟩
              · right
                have : ord' = ord := by omega
                subst this
                have := hcatuniq cat' (hprop_ord _ _ _ hp)
                subst this
                rcases hs with ⟨s', hp', _, hmem1⟩ | ⟨hno, _, _⟩
                · rw [hmem1]
                  have hss : s = s' := by
                    obtain ⟨_, _, _, d1, _, _, _, hd1, _, e1⟩ := hp
                    obtain ⟨_, _, _, d2, _, _, _, hd2, _, e2⟩ := hp'
                    rw [hd1] at hd2; cases hd2
                    rw [e1, e2]
                  subst hss
                  exact ⟨ids, id, w, hids, hid, hw, heq⟩
                · exact absurd ⟨s, hp⟩ hno
          · rcases hs with ⟨s, hp, hu, _⟩ | ⟨hno, hu, _⟩
            · left
              exact ⟨cat, ord, s, by omega, hp, hu, fun _ _ _ hlt' _ => by omega⟩
            · simp only at hu
              rcases hlast with ⟨cat', ord', s, hlt', hp, hst, hmax⟩ | ⟨hst, hno'⟩
              · left
                refine ⟨cat', ord', s, by omega, hp, by rw [hu]; exact hst, ?_⟩
                intro cat2 ord2 s2 hlt2 hp2
                by_cases hoo : ord2 < ord
                · exact hmax _ _ _ hoo hp2
                · have : ord2 = ord := by omega
                  subst this
                  have := hcatuniq cat2 (hprop_ord _ _ _ hp2)
                  subst this
                  exact absurd ⟨s2, hp2⟩ hno
              · right
                refine ⟨by rw [hu]; exact hst, ?_⟩
                rintro ⟨cat2, ord2, s2, hlt2, hp2⟩
                by_cases hoo : ord2 < ord
                · exact hno' ⟨cat2, ord2, s2, hoo, hp2⟩
                · have : ord2 = ord := by omega
                  subst this
                  have := hcatuniq cat2 (hprop_ord _ _ _ hp2)
                  subst this
                  exact hno ⟨s2, hp2⟩)
      cats.zipIdx ([], ue) (new, ue')
      ⟨0, by omega, by simp, by simp, .inr ⟨rfl, by simp⟩⟩ h
    obtain ⟨k, hk, htodo, hmem, hlast⟩ := key
    have hkl : k = cats.length := by
      have h0 := congrArg List.length htodo
      simp at h0
      omega
    subst hkl
    have hltk : ∀ cat ord s, Proposes env (c :: cs) cat ord s → ord < cats.length := by
      intro cat ord s hp
      have := hprop_ord _ _ _ hp
      exact (List.getElem?_eq_some_iff.mp this).1
    refine ⟨?_, ?_⟩
    · intro e
      rw [hmem]
      constructor
      · rintro ⟨cat, ord, s, ids, id, w, _, hp, hids, hid, hw, rfl⟩
        exact ⟨⟨s, w⟩, ⟨cat, ord, ids, id, hp, hids, hid, hw⟩, rfl⟩
      · rintro ⟨w, ⟨cat, ord, ids, id, hp, hids, hid, hw⟩, rfl⟩
        exact ⟨cat, ord, w.surface, ids, id, w.entry, hltk _ _ _ hp, hp, hids, hid, hw, rfl⟩
    · rcases hlast with ⟨cat, ord, s, _, hp, hst, hmax⟩ | ⟨hst, hno⟩
      · exact ⟨some (start + blen s), .inl ⟨cat, ord, s, hp, rfl,
          fun _ _ _ hp' => hmax _ _ _ (hltk _ _ _ hp') hp'⟩, by simpa using hst⟩
      · refine ⟨none, .inr ⟨rfl, ?_⟩, by simpa using hst⟩
        rintro ⟨cat, ord, s, hp⟩
        exact hno ⟨cat, ord, s, hltk _ _ _ hp, hp⟩

end Verif.Model
