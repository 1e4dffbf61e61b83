import Verif.Spec.FilterOrder
import Verif.Proofs.TokenFilter
import Verif.Proofs.Number
/-! Proofs about applying token filters twice and in another order. -/
namespace Verif.Model
open Verif.Spec

/-- `retain` in one piece: the closure must return on every token. -/
theorem retain_ok_iff {p : FToken → R Bool} {ts out : List FToken} :
    retain p ts = .ok out ↔ ∃ q : FToken → Bool, (∀ t ∈ ts, p t = .ok (q t)) ∧ out = ts.filter q := by
  constructor
  · intro h
    refine ⟨fun t => match p t with | .ok b => b | .error _ => false, ?_⟩
    induction ts generalizing out with
    | nil => cases h; simp
    | cons t ts ih =>
      rw [retain, bind_eq_ok] at h
      obtain ⟨b, hb, h⟩ := h
      rw [bind_eq_ok] at h
      obtain ⟨rest, hr, h⟩ := h
      obtain ⟨h1, h2⟩ := ih hr
      have hx := Except.ok.inj h
      refine ⟨?_, ?_⟩
      · intro t' ht'
        rcases List.mem_cons.mp ht' with rfl | ht'
        · simp [hb]
        · exact h1 t' ht'
      · rw [List.filter_cons, hb, ← hx, ← h2]
  · rintro ⟨q, h1, rfl⟩
    induction ts with
    | nil => rfl
    | cons t ts ih =>
      rw [retain, h1 t (by simp), bind_ok, ih (fun t ht => h1 t (by simp [ht])), bind_ok, List.filter_cons]
      rfl

theorem retain_twice (p : FToken → R Bool) : Idempotent (retain p) := by
  intro ts out h
  obtain ⟨q, h1, rfl⟩ := retain_ok_iff.mp h
  exact retain_ok_iff.mpr ⟨q, fun t ht => h1 t (List.mem_filter.mp ht).1, by simp⟩

theorem retain_comm (p p' : FToken → R Bool) : Interchangeable (retain p) (retain p') := by
  intro ts a b ha hb
  obtain ⟨q, h1, rfl⟩ := retain_ok_iff.mp ha
  obtain ⟨q', h2, rfl⟩ := retain_ok_iff.mp hb
  refine ⟨(ts.filter q).filter q', retain_ok_iff.mpr ⟨q', fun t ht => h2 t (List.mem_filter.mp ht).1, rfl⟩,
    retain_ok_iff.mpr ⟨q, fun t ht => h1 t (List.mem_filter.mp ht).1, ?_⟩⟩
  rw [List.filter_filter, List.filter_filter]
  exact List.filter_congr fun t _ => Bool.and_comm _ _

theorem _root_.Verif.Spec.SelectFilter.eq {f : TokenFilter} (h : SelectFilter f) : ∃ p, f = retain p := by
  cases h <;> exact ⟨_, rfl⟩

/-- A tag filter looks at the details only. -/
theorem _root_.Verif.Spec.TagFilter.eq {f : TokenFilter} (h : TagFilter f) : ∃ p : FToken → R Bool, f = retain p ∧ ∀ t s, p { t with text := s } = p t := by
  cases h <;> exact ⟨_, rfl, fun t s => rfl⟩

/-- Selecting by anything but the text and rewriting texts can be exchanged. -/
theorem retain_rewrite_comm {p : FToken → R Bool} (hp : ∀ t s, p { t with text := s } = p t) (g : FToken → R Str) :
    Interchangeable (retain p) (rewriteText g) := by
  intro ts a b ha hb
  obtain ⟨q, h1, rfl⟩ := retain_ok_iff.mp ha
  rw [rewriteText_ok] at hb
  clear ha
  induction hb with
  | nil => exact ⟨[], rfl, rfl⟩
  | @cons t t' ts ts' ht _ ih =>
    obtain ⟨s, hs, rfl⟩ := ht
    obtain ⟨out, h3, h4⟩ := ih (fun t ht => h1 t (by simp [ht]))
    rw [List.filter_cons]
    rw [retain, hp, h1 t (by simp), bind_ok, h4, bind_ok]
    cases q t with
    | true =>
      refine ⟨{ t with text := s } :: out, ?_, rfl⟩
      rw [rewriteText_ok] at h3 ⊢
      exact .cons ⟨s, hs, rfl⟩ h3
    | false => exact ⟨out, h3, rfl⟩

/-! ### Rewriting texts twice -/

theorem rewriteText_twice {g : FToken → R Str} (h : ∀ t s, g t = .ok s → g { t with text := s } = .ok s) : Idempotent (rewriteText g) := by
  intro ts out ho
  rw [rewriteText_ok] at ho ⊢
  induction ho with
  | nil => exact .nil
  | @cons t t' _ _ ht _ ih =>
    obtain ⟨s, hs, rfl⟩ := ht
    exact .cons ⟨s, h t s hs, rfl⟩ ih

theorem _root_.Verif.Spec.FormFilter.eq {f : TokenFilter} (h : FormFilter f) : ∃ c, f = rewriteText (formText c) := by
  cases h <;> exact ⟨_, rfl⟩

theorem formText_twice {c : Option Nat} {t : FToken} {s : Str} (h : formText c t = .ok s) : formText c { t with text := s } = .ok s := by
  unfold formText at h ⊢
  rw [bind_eq_ok] at h
  obtain ⟨first, h1, h⟩ := h
  show (do let first ← orPanic t.details[0]?; _ : R Str) = _
  rw [h1, bind_ok]
  by_cases hu : first = "UNK".toList
  · rw [if_pos hu]
  · rw [if_neg hu] at h ⊢
    cases c with
    | none => rfl
    | some i => exact h

/-- Characters the number filter leaves alone. -/
def PlainChar (c : Char) : Prop := numeralDigit c = some c ∨ (numeralDigit c = none ∧ numberUnit c = none)

theorem numeralDigit_settled {c d : Char} (h : numeralDigit c = some d) : numeralDigit d = some d := by
  obtain ⟨n, hn, _, rfl⟩ := numeralDigit_some h
  rcases n with _ | _ | _ | _ | _ | _ | _ | _ | _ | _ | n <;> first | rfl | omega

theorem adjustDigits_settled {num base digit out : Str} (hb : ∀ c ∈ base, c = '0') (hd : ∀ c ∈ digit, c = '0') (hn : ∀ c ∈ num, PlainChar c)
    (h : adjustDigits num base digit = .ok out) : ∀ c ∈ out, PlainChar c := by
  unfold adjustDigits at h
  dsimp only at h
  split at h
  · rw [bind_eq_ok] at h
    obtain ⟨z, hz, h⟩ := h
    rw [orPanic_eq_ok, sliceBytes_eq_some] at hz
    obtain ⟨p, r, he, _⟩ := hz
    rw [← Except.ok.inj h]
    intro c hc
    rcases List.mem_append.mp hc with hc | hc
    · have : c ∈ base ++ digit := by rw [he]; simp [hc]
      have hz : c = '0' := by rcases List.mem_append.mp this with h | h; exact hb c h; exact hd c h
      rw [hz]; exact .inl (by decide)
    · exact hn c hc
  · cases h

theorem numberUnit_zeros {c : Char} {u : NumberUnit} (h : numberUnit c = some u) : (∀ c ∈ u.base, c = '0') ∧ ∀ l, u.large = some l → ∀ c ∈ l, c = '0' := by
  unfold numberUnit at h
  repeat' split at h
  all_goals first | (cases h; done) | (rw [← Option.some.inj h]; exact ⟨by simp, by simp⟩)

theorem numeralStep_settled {c : Char} {next : Option Char} {buf digit : Str} {st : Str × Str} (hb : ∀ c ∈ buf, PlainChar c) (hd : ∀ c ∈ digit, c = '0')
    (h : numeralStep c next buf digit = .ok st) : (∀ c ∈ st.1, PlainChar c) ∧ ∀ c ∈ st.2, c = '0' := by
  unfold numeralStep at h
  cases hc : numeralDigit c with
  | some x =>
    rw [hc] at h
    rw [← Except.ok.inj h]
    refine ⟨fun y hy => ?_, hd⟩
    rcases List.mem_cons.mp hy with rfl | hy
    · exact .inl (numeralDigit_settled hc)
    · exact hb y hy
  | none =>
    rw [hc] at h
    cases hu : numberUnit c with
    | none =>
      rw [hu] at h
      rw [← Except.ok.inj h]
      refine ⟨fun y hy => ?_, by simp⟩
      rcases List.mem_cons.mp hy with rfl | hy
      · exact .inr ⟨hc, hu⟩
      · exact hb y hy
    | some u =>
      rw [hu] at h
      obtain ⟨hz, hl⟩ := numberUnit_zeros hu
      dsimp only at h
      unfold NumberUnit.apply at h
      dsimp only at h
      have hd' : ∀ c ∈ u.large.getD digit, c = '0' := by
        cases hlg : u.large with
        | none => exact hd
        | some l => exact hl l hlg
      rw [bind_eq_ok] at h
      obtain ⟨nb, h1, h⟩ := h
      have hn := adjustDigits_settled hz hd' hb h1
      rw [← Except.ok.inj h]
      refine ⟨?_, hd'⟩
      dsimp only
      split
      · intro y hy
        rcases List.mem_cons.mp hy with rfl | hy
        · exact .inl (by decide)
        · exact hn y hy
      · exact hn

theorem numeralLoop_settled {cs : List Char} {buf digit out : Str} (hb : ∀ c ∈ buf, PlainChar c) (hd : ∀ c ∈ digit, c = '0')
    (h : numeralLoop cs buf digit = .ok out) : ∀ c ∈ out, PlainChar c := by
  induction cs generalizing buf digit with
  | nil => cases h; exact hb
  | cons c cs ih =>
    rw [numeralLoop, bind_eq_ok] at h
    obtain ⟨st, h1, h⟩ := h
    obtain ⟨h2, h3⟩ := numeralStep_settled hb hd h1
    exact ih h2 h3 h

theorem numeralLoop_fixed {cs : List Char} (h : ∀ c ∈ cs, PlainChar c) (buf digit : Str) : numeralLoop cs buf digit = .ok (cs.reverse ++ buf) := by
  induction cs generalizing buf digit with
  | nil => rfl
  | cons c cs ih =>
    have hs : ∃ dg, numeralStep c cs.head? buf digit = .ok (c :: buf, dg) := by
      unfold numeralStep
      rcases h c (by simp) with hc | ⟨hc, hu⟩
      · rw [hc]; exact ⟨_, rfl⟩
      · rw [hc, hu]; exact ⟨_, rfl⟩
    obtain ⟨dg, hs⟩ := hs
    rw [numeralLoop, hs, bind_ok]
    dsimp only
    rw [ih (fun c hc => h c (by simp [hc]))]
    simp

theorem toArabic_twice {s out : Str} (h : toArabicNumerals s = .ok out) : toArabicNumerals out = .ok out := by
  have hs := numeralLoop_settled (by simp) (by simp) h
  unfold toArabicNumerals
  rw [numeralLoop_fixed (fun c hc => hs c (by simpa using hc))]
  simp

theorem numberText_twice {tags : Option (List Str)} {t : FToken} {s : Str} (h : numberText tags t = .ok s) :
    numberText tags { t with text := s } = .ok s := by
  unfold numberText at h ⊢
  rw [bind_eq_ok] at h
  obtain ⟨tag, h1, h⟩ := h
  have h1' : FToken.tag { t with text := s } = .ok tag := h1
  rw [h1', bind_ok]
  cases tags with
  | none => exact toArabic_twice h
  | some tags =>
    dsimp only at h ⊢
    split at h
    · rename_i hc; rw [if_pos hc]; exact toArabic_twice h
    · rename_i hc; rw [if_neg hc]

/-! ### Compound words twice -/

theorem overwriteFrom_length {parts base out : List Str} {i : Nat} (h : overwriteFrom i parts base = .ok out) : out.length = base.length := by
  induction parts generalizing i base with
  | nil => cases h; rfl
  | cons p ps ih =>
    rw [overwriteFrom] at h
    split at h
    · rw [ih h]; simp
    · cases h

theorem compoundDetails_ne {f : CompoundWord} {ds : List Str} (h : f.details = .ok ds) : ds ≠ [] := by
  have : ds.length = f.baseDetails.length := by
    unfold CompoundWord.details at h
    split at h
    · exact overwriteFrom_length h
    · cases h; rfl
  intro e
  rw [e] at this
  simp [CompoundWord.baseDetails] at this

/-- What has been put out so far would be put out again, and the pending token has a tag. -/
structure AgainInv (f : CompoundWord) (st : List FToken × Option FToken) : Prop where
  again : st.1.foldlM f.step ([], none) = .ok (st.1, none)
  tag : ∀ c, st.2 = some c → ∃ pos, c.tag = .ok pos

theorem AgainInv.step {f : CompoundWord} {st st' : List FToken × Option FToken} {t : FToken} (inv : AgainInv f st) (h : f.step st t = .ok st') :
    AgainInv f st' := by
  obtain ⟨acc, pending⟩ := st
  have htag : ∀ c, pending = some c → ∃ pos, c.tag = .ok pos := inv.tag
  have hagain : acc.foldlM f.step ([], none) = .ok (acc, none) := inv.again
  unfold CompoundWord.step at h
  rw [bind_eq_ok] at h
  obtain ⟨pos, hpos, h⟩ := h
  unfold CompoundWord.place at h
  cases hb : f.tags.contains pos with
  | true =>
    rw [hb, if_pos rfl] at h
    cases hp : pending with
    | none =>
      rw [hp] at h
      rw [← Except.ok.inj h]
      exact ⟨hagain, fun c hc => by cases hc; exact ⟨pos, hpos⟩⟩
    | some c =>
      rw [hp] at h
      dsimp only at h
      rw [bind_eq_ok] at h
      obtain ⟨c', hc', h⟩ := h
      rw [← Except.ok.inj h]
      refine ⟨hagain, fun x hx => ?_⟩
      cases hx
      unfold CompoundWord.concat at hc'
      rw [bind_eq_ok] at hc'
      obtain ⟨ds, hds, hc'⟩ := hc'
      rw [← Except.ok.inj hc']
      exact ⟨_, tag_ok (by exact compoundDetails_ne hds)⟩
  | false =>
    have hstep : ∀ a : List FToken, ∀ c : Option FToken, f.step (a, c) t = .ok (match c with | some c => (a ++ [c] ++ [t], none) | none => (a ++ [t], none)) := by
      intro a c
      unfold CompoundWord.step CompoundWord.place
      rw [hpos, bind_ok, hb]
      cases c <;> rfl
    rw [hb, if_neg (by simp)] at h
    cases hp : pending with
    | none =>
      rw [hp] at h
      rw [← Except.ok.inj h]
      refine ⟨?_, by simp⟩
      dsimp only
      rw [List.foldlM_append, hagain, bind_ok, List.foldlM_cons, hstep, bind_ok]
      rfl
    | some c =>
      rw [hp] at h
      rw [← Except.ok.inj h]
      refine ⟨?_, by simp⟩
      dsimp only
      obtain ⟨pc, hpc⟩ := htag c hp
      rw [List.append_assoc, List.foldlM_append, hagain, bind_ok, List.singleton_append, List.foldlM_cons]
      have hc : f.step (acc, none) c = .ok (if f.tags.contains pc then (acc, some c) else (acc ++ [c], none)) := by
        unfold CompoundWord.step CompoundWord.place
        rw [hpc, bind_ok]
        split <;> rfl
      rw [hc, bind_ok, List.foldlM_cons]
      split
      · rw [hstep]; simp
      · rw [hstep]; simp

theorem compound_twice (f : CompoundWord) : Idempotent f.apply := by
  intro tokens out h
  unfold CompoundWord.apply at h ⊢
  rw [bind_eq_ok] at h
  obtain ⟨st, hst, h⟩ := h
  have inv : AgainInv f st := foldlM_inv (fun _ st => AgainInv f st) (fun t _ st st' inv h => AgainInv.step inv h) tokens _ _ ⟨rfl, by simp⟩ hst
  obtain ⟨acc, pending⟩ := st
  have hagain : acc.foldlM f.step ([], none) = .ok (acc, none) := inv.again
  cases hp : pending with
  | none =>
    rw [hp] at h
    rw [← Except.ok.inj h]
    dsimp only
    rw [hagain]; rfl
  | some c =>
    rw [hp] at h
    rw [← Except.ok.inj h]
    dsimp only
    obtain ⟨pc, hpc⟩ := inv.tag c hp
    have hc : f.step (acc, none) c = .ok (if f.tags.contains pc then (acc, some c) else (acc ++ [c], none)) := by
      unfold CompoundWord.step CompoundWord.place
      rw [hpc, bind_ok]
      split <;> rfl
    rw [List.foldlM_append, hagain, bind_ok, List.foldlM_cons, hc, bind_ok, List.foldlM_nil, pure_eq_ok, bind_ok]
    cases f.tags.contains pc <;> rfl

/-! ### The mapping filter on texts without keys -/

theorem _root_.Verif.Spec.LongestMatch.noKey {m : StrMap} {s : Str} {ps : List Piece} (h : LongestMatch m s ps)
    (hk : ∀ k v, (k, v) ∈ m → ¬ k <:+: s) : target ps = s := by
  induction h with
  | done => rfl
  | replace k v r ps mem _ _ _ => exact absurd (List.infix_append [] k r) (hk k v mem)
  | keep c r ps _ _ ih =>
    have := ih (fun k v hm hi => hk k v hm (hi.trans (List.suffix_cons c r).isInfix))
    show [c] ++ target ps = _
    rw [this]; rfl

end Verif.Model
