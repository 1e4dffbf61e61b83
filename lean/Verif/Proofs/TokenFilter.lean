import Verif.Spec.TokenFilter
import Verif.Proofs.Monad
import Verif.Proofs.Details
import Verif.Proofs.Mapping
/-! Proofs about the token filters. -/
namespace Verif.Model
open Verif.Spec

theorem retain_spec {p : FToken → R Bool} {P : FToken → Prop} {ts : List FToken}
    (h : ∀ t ∈ ts, ∃ b, p t = .ok b ∧ (b = true ↔ P t)) : ∃ out, retain p ts = .ok out ∧ Kept P ts out := by
  induction ts with
  | nil => exact ⟨[], rfl, .nil⟩
  | cons t ts ih =>
    obtain ⟨b, hb, hP⟩ := h t (by simp)
    obtain ⟨out, ho, hk⟩ := ih (fun t ht => h t (by simp [ht]))
    rw [retain, hb, bind_ok, ho, bind_ok]
    cases b with
    | true => exact ⟨_, rfl, .keep (hP.mp rfl) hk⟩
    | false => exact ⟨_, rfl, .drop (fun h => by simpa using hP.mpr h) hk⟩

theorem _root_.Verif.Spec.Kept.unique {P : FToken → Prop} {ts a b : List FToken} (ha : Kept P ts a) (hb : Kept P ts b) : a = b := by
  induction ha generalizing b with
  | nil => cases hb; rfl
  | keep hp _ ih => cases hb with
    | keep _ hb => rw [ih hb]
    | drop hn _ => exact absurd hp hn
  | drop hn _ ih => cases hb with
    | keep hp _ => exact absurd hp hn
    | drop _ hb => exact ih hb

theorem _root_.Verif.Spec.Kept.mem {P : FToken → Prop} {ts out : List FToken} (h : Kept P ts out) {t : FToken} : t ∈ out ↔ t ∈ ts ∧ P t := by
  induction h with
  | nil => simp
  | keep hp _ ih =>
    simp only [List.mem_cons, ih]
    constructor
    · rintro (rfl | ⟨h1, h2⟩)
      · exact ⟨.inl rfl, hp⟩
      · exact ⟨.inr h1, h2⟩
    · rintro ⟨rfl | h1, h2⟩
      · exact .inl rfl
      · exact .inr ⟨h1, h2⟩
  | drop hn _ ih =>
    simp only [List.mem_cons, ih]
    constructor
    · rintro ⟨h1, h2⟩; exact ⟨.inr h1, h2⟩
    · rintro ⟨rfl | h1, h2⟩
      · exact absurd h2 hn
      · exact ⟨h1, h2⟩

theorem _root_.Verif.Spec.Kept.self {P : FToken → Prop} {ts : List FToken} (h : ∀ t ∈ ts, P t) : Kept P ts ts := by
  induction ts with
  | nil => exact .nil
  | cons t ts ih => exact .keep (h t (by simp)) (ih fun t ht => h t (by simp [ht]))

theorem _root_.Verif.Spec.Kept.again {P : FToken → Prop} {ts out : List FToken} (h : Kept P ts out) : Kept P out out :=
  .self fun _ ht => (h.mem.mp ht).2

theorem _root_.Verif.Spec.Kept.perm {P : FToken → Prop} {ts a b : List FToken} (ha : Kept P ts a) (hb : Kept (fun t => ¬ P t) ts b) :
    (a ++ b).Perm ts := by
  induction ha generalizing b with
  | nil => cases hb; exact .nil
  | keep hp _ ih => cases hb with
    | keep hn _ => exact absurd hp hn
    | drop _ hb => exact (ih hb).cons _
  | drop hn _ ih => cases hb with
    | keep _ hb => exact List.perm_middle.trans ((ih hb).cons _)
    | drop hnn _ => exact absurd hn hnn

/-! ### Tags -/

theorem overwriteFrom_ok {parts base : List Str} {i : Nat} (h : i + parts.length ≤ base.length) :
    overwriteFrom i parts base = .ok (base.take i ++ parts ++ base.drop (i + parts.length)) := by
  induction parts generalizing i base with
  | nil => simp [overwriteFrom]
  | cons p ps ih =>
    have hl : (p :: ps).length = ps.length + 1 := rfl
    rw [hl] at h
    rw [overwriteFrom, if_pos (by omega), ih (by simp; omega)]
    congr 1
    have hb : i < base.length := by omega
    rw [hl, List.take_set, List.drop_set_of_lt (by omega)]
    rw [show i + 1 + ps.length = i + (ps.length + 1) by omega]
    congr 1
    have : (base.take (i + 1)).set i p = base.take i ++ [p] := by
      rw [List.take_add_one, List.getElem?_eq_getElem hb]
      simp only [Option.toList_some]
      rw [List.set_append_right _ _ (by simp; omega)]
      simp [Nat.min_eq_left (Nat.le_of_lt hb)]
    rw [this]
    simp

theorem overwriteFrom_panic {parts base : List Str} {i : Nat} (hi : i ≤ base.length) (h : base.length < i + parts.length) :
    overwriteFrom i parts base = .error .panic := by
  induction parts generalizing i base with
  | nil => simp at h; omega
  | cons p ps ih =>
    rw [overwriteFrom]
    by_cases hb : i < base.length
    · rw [if_pos hb]
      apply ih
      · simp; omega
      · simp at h ⊢; omega
    · rw [if_neg hb]

theorem overwrite_fourStars {parts : List Str} (h : parts.length ≤ 4) : overwriteFrom 0 parts fourStars = .ok (pad parts) := by
  rw [overwriteFrom_ok (by simpa [fourStars] using h)]
  congr 1
  simp only [List.take_zero, List.nil_append, Nat.zero_add, pad]
  congr 1
  have : fourStars = List.replicate 4 ['*'] := rfl
  rw [this, List.drop_replicate]

theorem joinComma_eq (xs : List Str) : joinComma xs = [','].intercalate xs := by
  induction xs with
  | nil => rfl
  | cons x xs ih =>
    cases xs with
    | nil => simp [joinComma]
    | cons y ys => rw [joinComma, ih]; simp [List.intercalate, List.intersperse]

theorem splitAll_ne_nil {α : Type} (p : α → Bool) (xs : List α) : splitAll p xs ≠ [] := by
  cases xs with
  | nil => simp [splitAll]
  | cons x xs =>
    rw [splitAll]
    split
    · simp
    · split <;> simp

theorem tagParts_split (tag : Str) : TagParts tag (splitAll (· = ',') tag) := by
  refine ⟨?_, splitAll_ne_nil _ _, ?_⟩
  · rw [← joinComma_eq]
    induction tag with
    | nil => rfl
    | cons c s ih =>
      rw [splitAll]
      by_cases hc : c = ','
      · subst hc
        simp only [decide_true, if_true]
        cases h : splitAll (fun x => decide (x = ',')) s with
        | nil => exact absurd h (splitAll_ne_nil _ _)
        | cons p ps => rw [joinComma, ← h, ← ih]; rfl
      · simp only [hc, decide_false, Bool.false_eq_true, if_false]
        cases h : splitAll (fun x => decide (x = ',')) s with
        | nil => exact absurd h (splitAll_ne_nil _ _)
        | cons p ps =>
          rw [h] at ih
          dsimp only
          cases ps with
          | nil => simp only [joinComma] at ih ⊢; rw [ih]
          | cons q qs => rw [joinComma] at ih ⊢; rw [List.cons_append, ← ih]
  · induction tag with
    | nil => simp [splitAll]
    | cons c s ih =>
      rw [splitAll]
      by_cases hc : c = ','
      · simp only [hc, decide_true, if_true]
        intro p hp
        rcases List.mem_cons.mp hp with rfl | hp
        · simp
        · exact ih p hp
      · simp only [hc, decide_false, Bool.false_eq_true, if_false]
        split
        · intro p hp
          simp at hp; subst hp; simp; exact fun h => hc h.symm
        · rename_i q qs h
          rw [h] at ih
          intro p hp
          rcases List.mem_cons.mp hp with rfl | hp
          · have := ih q (by simp)
            simp [this]; exact fun h => hc h.symm
          · exact ih p (by simp [hp])

theorem split_intercalate {parts : List Str} (hne : parts ≠ []) (h : ∀ p ∈ parts, ',' ∉ p) :
    splitAll (· = ',') (joinComma parts) = parts := by
  induction parts with
  | nil => exact absurd rfl hne
  | cons p ps ih =>
    have hp : ∀ x ∈ p, (decide (x = ',')) = false := by
      intro x hx; rw [decide_eq_false_iff_not]; rintro rfl; exact h p (by simp) hx
    cases ps with
    | nil => rw [joinComma]; exact splitAll_none hp
    | cons q qs =>
      rw [joinComma, splitAll_cons hp (by simp), ih (by simp) (fun x hx => h x (by simp [hx]))]

theorem _root_.Verif.Spec.TagParts.split {tag : Str} {parts : List Str} (h : TagParts tag parts) : splitAll (· = ',') tag = parts := by
  rw [h.join, ← joinComma_eq]; exact split_intercalate h.nonempty h.noComma

theorem count_joinComma {xs : List Str} (h : xs ≠ []) : (joinComma xs).count ',' + 1 = xs.length + (xs.map (List.count ',')).sum := by
  induction xs with
  | nil => exact absurd rfl h
  | cons x xs ih =>
    cases xs with
    | nil => simp [joinComma]; omega
    | cons y ys =>
      have := ih (by simp)
      rw [joinComma, List.count_append, List.count_cons_self]
      simp only [List.length_cons, List.map_cons, List.sum_cons] at this ⊢
      omega

theorem sum_eq_zero_iff' {xs : List Nat} : xs.sum = 0 ↔ ∀ n ∈ xs, n = 0 := by
  induction xs with
  | nil => simp
  | cons x xs ih => simp [ih]

/-- Joining determines lists of the same length if one of them has no commas in its elements. -/
theorem joinComma_inj {xs ys : List Str} (hx : xs ≠ []) (hl : xs.length = ys.length) (hy : ∀ y ∈ ys, ',' ∉ y)
    (h : joinComma xs = joinComma ys) : xs = ys := by
  have hyne : ys ≠ [] := by rintro rfl; simp at hl; exact hx hl
  have c1 := count_joinComma hx
  have c2 := count_joinComma hyne
  have c3 : (ys.map (List.count ',')).sum = 0 := by
    rw [sum_eq_zero_iff']
    intro n hn
    obtain ⟨y, hy', rfl⟩ := List.mem_map.mp hn
    exact List.count_eq_zero.mpr (hy y hy')
  rw [h] at c1
  have c4 : (xs.map (List.count ',')).sum = 0 := by omega
  rw [sum_eq_zero_iff'] at c4
  have hx' : ∀ x ∈ xs, ',' ∉ x := fun x hx => List.count_eq_zero.mp (c4 _ (List.mem_map_of_mem hx))
  rw [← split_intercalate hx hx', h, split_intercalate hyne hy]

theorem formatTag_ok {tag : Str} {parts : List Str} (h : TagParts tag parts) (hl : parts.length ≤ 4) :
    formatTag tag = .ok (joinComma (pad parts)) := by
  unfold formatTag
  rw [h.split, overwrite_fourStars hl]; rfl

theorem formatTag_panic {tag : Str} {parts : List Str} (h : TagParts tag parts) (hl : 4 < parts.length) :
    formatTag tag = .error .panic := by
  unfold formatTag
  rw [h.split, overwriteFrom_panic (by simp) (by simpa [fourStars] using hl)]; rfl

theorem pad_length {parts : List Str} (h : parts.length ≤ 4) : (pad parts).length = 4 := by
  simp [pad]; omega

theorem pad_noComma {parts : List Str} (h : ∀ p ∈ parts, ',' ∉ p) : ∀ p ∈ pad parts, ',' ∉ p := by
  intro p hp
  rcases List.mem_append.mp hp with hp | hp
  · exact h p hp
  · rw [(List.mem_replicate.mp hp).2]; decide

theorem partOfSpeech_length (t : FToken) : (partOfSpeech t).length = 4 := by
  unfold partOfSpeech
  split
  · simp; omega
  · exact pad_length (by simp; omega)

theorem tag_ok {t : FToken} (h : t.details ≠ []) : t.tag = .ok (joinComma (partOfSpeech t)) := by
  unfold FToken.tag partOfSpeech
  have hpos : 1 ≤ t.details.length := List.length_pos_iff.mpr h
  by_cases h4 : 4 ≤ t.details.length
  · have e : (if t.details.length ≥ 4 then 4 else 1) = 4 := if_pos h4
    rw [e]
    dsimp only
    rw [if_pos h4, if_pos h4, orPanic_some, bind_ok, overwrite_fourStars (by simp; omega)]
    have : pad (t.details.take 4) = t.details.take 4 := by simp [pad, Nat.min_eq_left h4]
    rw [this]; rfl
  · have e : (if t.details.length ≥ 4 then 4 else 1) = 1 := if_neg h4
    rw [e]
    dsimp only
    rw [if_pos hpos, if_neg h4, orPanic_some, bind_ok, overwrite_fourStars (by simp; omega)]; rfl

theorem tag_panic {t : FToken} (h : t.details = []) : t.tag = .error .panic := by
  unfold FToken.tag
  rw [h]; rfl

/-- At most three commas: at most four parts. -/
theorem _root_.Verif.Spec.TagParts.length_eq {tag : Str} {parts : List Str} (h : TagParts tag parts) : parts.length = tag.count ',' + 1 := by
  rw [h.join, ← joinComma_eq, count_joinComma h.nonempty]
  have : (parts.map (List.count ',')).sum = 0 := by
    rw [sum_eq_zero_iff']
    intro n hn
    obtain ⟨y, hy', rfl⟩ := List.mem_map.mp hn
    exact List.count_eq_zero.mpr (h.noComma y hy')
  omega

theorem formatTags_ok {tags : List Str} (h : ∀ tag ∈ tags, tag.count ',' ≤ 3) :
    ∃ ft, formatTags tags = .ok ft ∧ ∀ t : FToken, t.details ≠ [] → (ft.contains (joinComma (partOfSpeech t)) = true ↔ HasTag tags t) := by
  obtain ⟨ft, hft⟩ := mapM_total (f := formatTag) (xs := tags) (fun tag ht =>
    ⟨_, formatTag_ok (tagParts_split tag) (by rw [(tagParts_split tag).length_eq]; have := h tag ht; omega)⟩)
  refine ⟨ft, hft, ?_⟩
  intro t htd
  rw [List.contains_iff_mem]
  constructor
  · intro hm
    obtain ⟨tag, ht, hf⟩ := mem_of_mapM_ok hft hm
    have hp := tagParts_split tag
    have hl : (splitAll (· = ',') tag).length ≤ 4 := by rw [hp.length_eq]; have := h tag ht; omega
    rw [formatTag_ok hp hl] at hf
    refine ⟨tag, ht, _, hp, ?_⟩
    have hne : partOfSpeech t ≠ [] := by
      intro e; have := partOfSpeech_length t; rw [e] at this; simp at this
    exact joinComma_inj hne (by rw [partOfSpeech_length t, pad_length hl]) (pad_noComma hp.noComma) (Except.ok.inj hf).symm
  · rintro ⟨tag, ht, parts, hp, he⟩
    obtain ⟨y, hy, hf⟩ := mem_mapM_ok hft ht
    rw [formatTag_ok hp (by rw [hp.length_eq]; have := h tag ht; omega)] at hf
    rw [he, Except.ok.inj hf]; exact hy

/-! ### Compound words -/

/-- The segments of the tokens seen so far: closed runs and the open one. -/
structure CompoundInv (tagged : FToken → Prop) (details : List Str → Prop) (done : List FToken) (st : List FToken × Option FToken)
    (runs : List (List FToken)) (cur : List FToken) : Prop where
  closed : Runs tagged (runs.flatten) runs
  flatten : runs.flatten ++ cur = done
  merged : List.Forall₂ (Merged details) runs st.1
  open_ : match st.2 with
    | none => cur = []
    | some c => cur ≠ [] ∧ (∀ t ∈ cur, tagged t) ∧ Merged details cur c
  boundary : ∀ r, runs.getLast? = some r → ¬ ∀ t ∈ r, tagged t

theorem _root_.Verif.Spec.Runs.snoc {tagged : FToken → Prop} {ts : List FToken} {runs : List (List FToken)} {r : List FToken}
    (h : Runs tagged ts runs) (hne : r ≠ []) (hk : (∀ t ∈ r, tagged t) ∨ (∃ t, r = [t] ∧ ¬ tagged t))
    (hb : ∀ l, runs.getLast? = some l → ¬ ((∀ t ∈ l, tagged t) ∧ ∀ t ∈ r, tagged t)) : Runs tagged (ts ++ r) (runs ++ [r]) := by
  refine ⟨by rw [List.flatten_append, h.flatten]; simp, ?_, ?_, ?_⟩
  · intro x hx
    rcases List.mem_append.mp hx with hx | hx
    · exact h.nonempty x hx
    · rw [List.mem_singleton] at hx; rw [hx]; exact hne
  · intro x hx
    rcases List.mem_append.mp hx with hx | hx
    · exact h.kind x hx
    · rw [List.mem_singleton] at hx; rw [hx]; exact hk
  · intro i a b ha hb'
    by_cases hi : i + 1 < runs.length
    · rw [List.getElem?_append_left (by omega)] at ha hb'
      exact h.maximal i a b ha hb'
    · rw [List.getElem?_append_right (by omega)] at hb'
      have hlt : i + 1 - runs.length < 1 := by
        by_contra hc
        rw [List.getElem?_eq_none (by simp; omega)] at hb'
        cases hb'
      have e : i + 1 = runs.length := by omega
      rw [e] at hb'
      simp at hb'
      rw [List.getElem?_append_left (by omega)] at ha
      subst hb'
      refine hb a ?_
      rw [List.getLast?_eq_getElem?, show runs.length - 1 = i by omega]
      exact ha

theorem _root_.Verif.Spec.Merged.concat {details : List Str → Prop} {run : List FToken} {c t : FToken} {ds : List Str} (hne : run ≠ []) (h : Merged details run c)
    (hd : details ds) : Merged details (run ++ [t]) { c with
      text := c.text ++ t.text
      byteEnd := t.byteEnd
      positionLength := c.positionLength + t.positionLength
      details := ds } := by
  right
  have hlen := List.length_pos_iff.mpr hne
  refine ⟨by simp; omega, ?_⟩
  rcases h with rfl | ⟨_, first, last, hf, hl, h1, h2, h3, h4, h5, h6, h7⟩
  · exact ⟨c, t, by simp, by simp, by simp, rfl, rfl, rfl, by simp, rfl, hd⟩
  · refine ⟨first, t, ?_, by simp, by simp [h1], h2, rfl, h4, by simp [h5], h6, hd⟩
    rw [List.head?_append_of_ne_nil _ hne]; exact hf

theorem _root_.Verif.Spec.Merged.single {details : List Str → Prop} (t : FToken) : Merged details [t] t := .inl rfl

theorem compound_step {f : CompoundWord} {tagged : FToken → Prop} {details : List Str → Prop} {ds : List Str} (hd : f.details = .ok ds)
    (hds : details ds) {t : FToken} {pos : Str} (hpos : t.tag = .ok pos) (htg : f.tags.contains pos = true ↔ tagged t)
    {done : List FToken} {st : List FToken × Option FToken} {runs : List (List FToken)} {cur : List FToken}
    (inv : CompoundInv tagged details done st runs cur) :
    ∃ st', f.step st t = .ok st' ∧ ∃ runs cur, CompoundInv tagged details (done ++ [t]) st' runs cur := by
  obtain ⟨news, comp⟩ := st
  unfold CompoundWord.step
  rw [hpos, bind_ok]
  have hopen := inv.open_
  by_cases hb : f.tags.contains pos = true
  · have ht := htg.mp hb
    unfold CompoundWord.place
    rw [if_pos hb]
    cases comp with
    | none =>
      have hcur : cur = [] := hopen
      subst hcur
      have hfl := inv.flatten
      rw [List.append_nil] at hfl
      exact ⟨_, rfl, runs, [t], inv.closed, by rw [hfl], inv.merged, ⟨by simp, by simpa using ht, .single t⟩, inv.boundary⟩
    | some c =>
      obtain ⟨hne, hall, hm⟩ := hopen
      dsimp only
      unfold CompoundWord.concat
      rw [hd, bind_ok]
      refine ⟨_, rfl, runs, cur ++ [t], inv.closed, by rw [← List.append_assoc, inv.flatten], inv.merged, ?_, inv.boundary⟩
      refine ⟨by simp, ?_, hm.concat hne hds⟩
      intro x hx
      rcases List.mem_append.mp hx with hx | hx
      · exact hall x hx
      · rw [List.mem_singleton] at hx; rw [hx]; exact ht
  · have ht : ¬ tagged t := fun h => hb (htg.mpr h)
    unfold CompoundWord.place
    rw [if_neg hb]
    cases comp with
    | none =>
      have hcur : cur = [] := hopen
      subst hcur
      have hfl := inv.flatten
      rw [List.append_nil] at hfl
      have hr := inv.closed.snoc (r := [t]) (by simp) (.inr ⟨t, rfl, ht⟩) (fun l _ h => ht (h.2 t (by simp)))
      refine ⟨_, rfl, runs ++ [[t]], [], ?_, by simp [hfl], ?_, rfl, ?_⟩
      · simpa using hr
      · exact List.rel_append inv.merged (.cons (.single t) .nil)
      · intro r h h'
        simp at h; subst h
        exact ht (h' t (by simp))
    | some c =>
      obtain ⟨hne, hall, hm⟩ := hopen
      have hr1 := inv.closed.snoc hne (.inl hall) (fun l hl h => inv.boundary l hl h.1)
      have hr2 := hr1.snoc (r := [t]) (by simp) (.inr ⟨t, rfl, ht⟩) (fun l _ h => ht (h.2 t (by simp)))
      refine ⟨_, rfl, runs ++ [cur] ++ [[t]], [], ?_, by rw [← inv.flatten]; simp, ?_, rfl, ?_⟩
      · simpa using hr2
      · exact List.rel_append (List.rel_append inv.merged (.cons hm .nil)) (.cons (.single t) .nil)
      · intro r h h'
        simp at h; subst h
        exact ht (h' t (by simp))

theorem compound_spec {f : CompoundWord} {tagged : FToken → Prop} {details : List Str → Prop} {ds : List Str} (hd : f.details = .ok ds)
    (hds : details ds) {tokens : List FToken}
    (htag : ∀ t ∈ tokens, ∃ pos, t.tag = .ok pos ∧ (f.tags.contains pos = true ↔ tagged t)) :
    ∃ out, f.apply tokens = .ok out ∧ ∃ runs, Runs tagged tokens runs ∧ List.Forall₂ (Merged details) runs out := by
  obtain ⟨st, hst, done, hdone, runs, cur, inv⟩ := foldlM_total (f := f.step)
    (P := fun rest st => ∃ done, done ++ rest = tokens ∧ ∃ runs cur, CompoundInv tagged details done st runs cur) (by
      rintro t rest st ⟨done, hdone, runs, cur, inv⟩
      obtain ⟨pos, hpos, htg⟩ := htag t (by rw [← hdone]; simp)
      obtain ⟨st', h1, h2⟩ := compound_step hd hds hpos htg inv
      exact ⟨st', h1, done ++ [t], by simpa using hdone, h2⟩) tokens ([], none)
    ⟨[], rfl, [], [], ⟨rfl, by simp, by simp, by simp⟩, rfl, .nil, rfl, by simp⟩
  rw [List.append_nil] at hdone
  subst hdone
  unfold CompoundWord.apply
  rw [hst, bind_ok]
  obtain ⟨news, comp⟩ := st
  have hopen := inv.open_
  cases comp with
  | none =>
    have hcur : cur = [] := hopen
    subst hcur
    have hfl := inv.flatten
    rw [List.append_nil] at hfl
    exact ⟨_, rfl, runs, hfl ▸ inv.closed, inv.merged⟩
  | some c =>
    obtain ⟨hne, hall, hm⟩ := hopen
    have hr1 := inv.closed.snoc hne (.inl hall) (fun l hl h => inv.boundary l hl h.1)
    rw [inv.flatten] at hr1
    exact ⟨_, rfl, runs ++ [cur], hr1, List.rel_append inv.merged (.cons hm .nil)⟩

/-- The text of the merged tokens is the text of the runs. -/
theorem merged_text {details : List Str → Prop} {runs : List (List FToken)} {out : List FToken} (h : List.Forall₂ (Merged details) runs out) :
    (out.map (·.text)).flatten = (runs.flatten.map (·.text)).flatten := by
  induction h with
  | nil => rfl
  | cons h _ ih =>
    rw [List.map_cons, List.flatten_cons, ih, List.flatten_cons, List.map_append, List.flatten_append]
    congr 1
    rcases h with rfl | ⟨_, _, _, _, _, h, _⟩
    · simp
    · exact h

theorem compound_details {features : Features} {kind : DictionaryKind} {tags : List Str} {newTag : Option Str} {f : CompoundWord}
    (h : CompoundWord.new features kind tags newTag = .ok f) : ∃ ds, f.details = .ok ds ∧ CompoundDetails features kind newTag ds := by
  unfold CompoundWord.new at h
  rw [bind_eq_ok] at h
  obtain ⟨ft, _, h⟩ := h
  rw [bind_eq_ok] at h
  obtain ⟨nt, hnt, h⟩ := h
  cases h
  unfold CompoundWord.details
  dsimp only
  cases newTag with
  | none =>
    cases hnt
    refine ⟨_, rfl, _, rfl, ?_⟩
    dsimp only [CompoundWord.baseDetails]
    congr 2
    split <;> rfl
  | some tag =>
    unfold formatNewTag at hnt
    rw [bind_eq_ok] at hnt
    obtain ⟨x, hx, hnt⟩ := hnt
    cases hnt
    have hp := tagParts_split tag
    have hl : (splitAll (· = ',') tag).length ≤ 4 := by
      by_contra hc
      rw [formatTag_panic hp (by omega)] at hx
      cases hx
    rw [formatTag_ok hp hl] at hx
    cases hx
    have hne : pad (splitAll (· = ',') tag) ≠ [] := by
      intro e; have := pad_length hl; rw [e] at this; simp at this
    dsimp only
    rw [split_intercalate hne (pad_noComma hp.noComma)]
    have hbl : (CompoundWord.baseDetails ⟨features, kind, ft, some (joinComma (pad (splitAll (· = ',') tag)))⟩) =
        "複合語".toList :: List.replicate (if kind = .unidic ∧ features.unidic then 16 else 8) ['*'] := rfl
    refine ⟨_, overwriteFrom_ok ?_, _, rfl, _, hp, ?_⟩
    · rw [pad_length hl, hbl]; simp; split <;> omega
    · rw [pad_length hl, hbl]
      simp only [List.take_zero, List.nil_append, Nat.zero_add, List.drop_succ_cons, List.drop_replicate]
      congr 2
      split <;> rfl

/-! ### Text rewriting -/

theorem rewriteText_ok {f : FToken → R Str} {ts out : List FToken} :
    rewriteText f ts = .ok out ↔ List.Forall₂ (fun t t' => ∃ s, f t = .ok s ∧ t' = { t with text := s }) ts out := by
  unfold rewriteText
  rw [mapM_ok_iff]
  have : (fun (x y : FToken) => (do let text ← f x; return { x with text := text } : R FToken) = .ok y) =
      fun t t' => ∃ s, f t = .ok s ∧ t' = { t with text := s } := by
    funext t t'
    rw [bind_eq_ok]
    simp only [pure_eq_ok, Except.ok.injEq, eq_comm]
  rw [this]

theorem rewriteText_total {f : FToken → R Str} {ts : List FToken} (h : ∀ t ∈ ts, ∃ s, f t = .ok s) : ∃ out, rewriteText f ts = .ok out := by
  unfold rewriteText
  apply mapM_total
  intro t ht
  obtain ⟨s, hs⟩ := h t ht
  exact ⟨_, by rw [hs]; rfl⟩

theorem Mapping.tokenLoop_eq (f : Mapping) (text : Str) (fuel start : Nat) (result : Str) (t : OffsetTable) :
    f.tokenLoop text fuel start result = (f.loop text fuel start result t).map (·.1) := by
  induction fuel generalizing start result t with
  | zero => rfl
  | succ fuel ih =>
    rw [Mapping.tokenLoop, Mapping.loop]
    by_cases hs : start < blen text
    · rw [if_pos hs, if_pos hs]
      cases hd : dropBytes text start with
      | none => rfl
      | some suffix =>
        rw [orPanic_some, bind_ok, bind_ok]
        cases f.matchLen suffix with
        | none =>
          cases suffix with
          | nil => rfl
          | cons c _ => exact ih _ _ _
        | some n =>
          dsimp only
          cases sliceBytes text start (start + n) with
          | none => rfl
          | some k =>
            rw [orPanic_some, bind_ok, bind_ok]
            cases f.mapping.get k with
            | none => rfl
            | some v => rw [orPanic_some, bind_ok, bind_ok]; exact ih _ _ _
    · rw [if_neg hs, if_neg hs]; rfl

theorem Mapping.tokenText {m : StrMap} (hm : MappingOk m) (text : Str) :
    ∃ ps, Mapping.tokenLoop ⟨m, ⟨Mapping.keyset m⟩⟩ text (blen text + 1) 0 [] = .ok (target ps) ∧ LongestMatch m text ps ∧ source ps = text := by
  obtain ⟨ps, t, h1, h2, _, _, h5⟩ := Mapping.apply_spec hm text
  refine ⟨ps, ?_, h2, h5⟩
  rw [Mapping.tokenLoop_eq _ _ _ _ _ .empty]
  unfold Mapping.apply at h1
  rw [h1]; rfl

/-! ### Katakana stem -/

theorem isKatakana_ok {block : Char → Option (Nat × Nat)} {s : Str} (h : ∀ c ∈ s, (block c).isSome) :
    ∃ b, isKatakana block s = .ok b ∧ (b = true ↔ ∀ c ∈ s, block c = some (0x30A0, 0x30FF)) := by
  induction s with
  | nil => exact ⟨true, rfl, by simp⟩
  | cons c s ih =>
    obtain ⟨b, hb⟩ := Option.isSome_iff_exists.mp (h c (by simp))
    rw [isKatakana, hb, orPanic_some, bind_ok]
    by_cases hk : b = (0x30A0, 0x30FF)
    · rw [if_neg (by simpa using hk)]
      obtain ⟨x, h1, h2⟩ := ih (fun c hc => h c (by simp [hc]))
      refine ⟨x, h1, ?_⟩
      rw [h2]
      simp [hb, hk]
    · rw [if_pos hk]
      refine ⟨false, rfl, ?_⟩
      simp [hb, hk]

theorem isKatakana_panic {block : Char → Option (Nat × Nat)} {p s : Str} {c : Char} (h : ∀ c ∈ p, block c = some (0x30A0, 0x30FF))
    (hc : block c = none) : isKatakana block (p ++ c :: s) = .error .panic := by
  induction p with
  | nil => rw [List.nil_append, isKatakana, hc]; rfl
  | cons d p ih =>
    rw [List.cons_append, isKatakana, h d (by simp), orPanic_some, bind_ok, if_neg (by simp)]
    exact ih (fun c hc => h c (by simp [hc]))

theorem takeBytes_dropLast {s : Str} {c : Char} (h : s.getLast? = some c) : takeBytes s (blen s - c.utf8Size) = some s.dropLast := by
  obtain ⟨ys, rfl⟩ := List.getLast?_eq_some_iff.mp h
  rw [takeBytes_eq_some]
  refine ⟨[c], by simp, ?_⟩
  simp [blen_append, blen]

end Verif.Model
