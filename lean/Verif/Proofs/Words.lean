import Verif.Spec.Words
import Verif.Proofs.InOrder
/-! Token filters group the words of a text. -/
namespace Verif.Model
open Verif.Spec Verif.Props

/-- A token and the tokens it is made of. `r`: its text may have been rewritten. -/
structure Covers (r : Prop) (g : List FToken) (t : FToken) : Prop where
  ends : ∃ first last, g.head? = some first ∧ g.getLast? = some last ∧ t.byteStart = first.byteStart ∧ t.byteEnd = last.byteEnd ∧ t.position = first.position ∧ t.wordId = first.wordId
  count : t.positionLength = (g.map (·.positionLength)).sum
  single : ∀ w, g = [w] → t.details = w.details
  text : ¬ r → t.text = (g.map (·.text)).flatten

/-- `out` is made of groups of `ts`. `d`: tokens may be missing. -/
def GroupedBy (d r : Prop) (ts out : List FToken) : Prop :=
  ∃ groups : List (List FToken), groups.flatten.Sublist ts ∧ (¬ d → groups.flatten = ts) ∧ List.Forall₂ (Covers r) groups out

theorem Covers.mono {r r' : Prop} (hr : r → r') {g : List FToken} {t : FToken} (h : Covers r g t) : Covers r' g t :=
  ⟨h.ends, h.count, h.single, fun hn => h.text fun hr' => hn (hr hr')⟩

theorem Covers.one {r : Prop} (t : FToken) : Covers r [t] t :=
  ⟨⟨t, t, rfl, rfl, rfl, rfl, rfl, rfl⟩, by simp, by rintro w hw; cases hw; rfl, fun _ => by simp⟩

theorem Covers.ne {r : Prop} {g : List FToken} {t : FToken} (h : Covers r g t) : g ≠ [] := by
  obtain ⟨f, l, h1, -⟩ := h.ends
  rintro rfl
  cases h1

theorem GroupedBy.mono {d r d' r' : Prop} (hd : d → d') (hr : r → r') {ts out : List FToken} (h : GroupedBy d r ts out) : GroupedBy d' r' ts out := by
  obtain ⟨gs, h1, h2, h3⟩ := h
  exact ⟨gs, h1, fun hn => h2 fun h => hn (hd h), h3.imp fun _ _ h => h.mono hr⟩

theorem covers_all {r : Prop} : ∀ ts : List FToken, List.Forall₂ (Covers r) (ts.map ([·])) ts
  | [] => .nil
  | t :: ts => .cons (.one t) (covers_all ts)

theorem flatten_ones (ts : List FToken) : (ts.map ([·])).flatten = ts := by
  induction ts with
  | nil => rfl
  | cons t ts ih => rw [List.map_cons, List.flatten_cons, ih]; rfl

theorem forall2_sublist {α β : Type} {R : α → β → Prop} {as : List α} {bs bs' : List β} (h : List.Forall₂ R as bs) (hs : bs'.Sublist bs) : ∃ as', as'.Sublist as ∧ List.Forall₂ R as' bs' := by
  induction hs generalizing as with
  | slnil => exact ⟨[], List.nil_sublist _, .nil⟩
  | cons b _ ih =>
    cases h with
    | cons h1 h2 =>
      obtain ⟨as', k1, k2⟩ := ih h2
      exact ⟨as', k1.cons _, k2⟩
  | cons_cons b _ ih =>
    cases h with
    | cons h1 h2 =>
      obtain ⟨as', k1, k2⟩ := ih h2
      exact ⟨_ :: as', k1.cons_cons _, .cons h1 k2⟩

theorem sublist_flatten {α : Type} {gs gs' : List (List α)} (h : gs'.Sublist gs) : gs'.flatten.Sublist gs.flatten := by
  induction h with
  | slnil => exact List.Sublist.refl _
  | cons g _ ih => rw [List.flatten_cons]; exact ih.trans (List.sublist_append_right _ _)
  | cons_cons g _ ih => rw [List.flatten_cons, List.flatten_cons]; exact (List.Sublist.refl g).append ih

theorem forall2_split {α β : Type} {R : α → β → Prop} : ∀ {bss : List (List β)} {as : List α}, List.Forall₂ R as bss.flatten → ∃ ass : List (List α), ass.flatten = as ∧
    List.Forall₂ (List.Forall₂ R) ass bss := by
  intro bss
  induction bss with
  | nil => intro as h; cases h; exact ⟨[], rfl, .nil⟩
  | cons bs bss ih =>
    intro as h
    rw [List.flatten_cons] at h
    have h1 := List.forall₂_take_append _ _ _ h
    have h2 := List.forall₂_drop_append _ _ _ h
    obtain ⟨ass, k1, k2⟩ := ih h2
    exact ⟨_ :: ass, by rw [List.flatten_cons, k1, List.take_append_drop], .cons h1 k2⟩

theorem forall2_trans {α β γ : Type} {R : α → β → Prop} {S : β → γ → Prop} {T : α → γ → Prop} (h : ∀ a b c, R a b → S b c → T a c) {as : List α} {bs : List β} {cs : List γ}
    (h1 : List.Forall₂ R as bs) (h2 : List.Forall₂ S bs cs) : List.Forall₂ T as cs := by
  induction h1 generalizing cs with
  | nil => cases h2; exact .nil
  | cons k1 _ ih => cases h2 with
    | cons k2 k3 => exact .cons (h _ _ _ k1 k2) (ih k3)

theorem Covers.trans {r1 r2 : Prop} {gs : List (List FToken)} {g : List FToken} {t : FToken} (h1 : List.Forall₂ (Covers r1) gs g) (h2 : Covers r2 g t) : Covers (r1 ∨ r2) gs.flatten t := by
  obtain ⟨f, l, hf, hl, e1, e2, e3, e4⟩ := h2.ends
  refine ⟨?_, ?_, ?_, ?_⟩
  · have hfirst : ∃ first, gs.flatten.head? = some first ∧ f.byteStart = first.byteStart ∧ f.position = first.position ∧ f.wordId = first.wordId := by
      cases h1 with
      | nil => cases hf
      | cons k1 _ =>
        cases hf
        obtain ⟨a, b, a1, a2, a3, a4, a5, a6⟩ := k1.ends
        refine ⟨a, ?_, a3, a5, a6⟩
        rw [List.flatten_cons, List.head?_append, a1]
        rfl
    have hlast : ∃ last, gs.flatten.getLast? = some last ∧ l.byteEnd = last.byteEnd := by
      clear hf hfirst h2 e1 e2 e3 e4
      induction h1 with
      | nil => cases hl
      | @cons x y xs ys k1 k2 ih =>
        cases k2 with
        | nil =>
          cases hl
          obtain ⟨a, b, a1, a2, a3, a4, a5, a6⟩ := k1.ends
          exact ⟨b, by simpa using a2, a4⟩
        | cons k2 k3 =>
          obtain ⟨b, b1, b2⟩ := ih (by simpa using hl)
          refine ⟨b, ?_, b2⟩
          rw [List.flatten_cons, List.getLast?_append, b1]
          rfl
    obtain ⟨a, a1, a2, a3, a4⟩ := hfirst
    obtain ⟨b, b1, b2⟩ := hlast
    exact ⟨a, b, a1, b1, e1.trans a2, e2.trans b2, e3.trans a3, e4.trans a4⟩
  · rw [h2.count]
    clear hf hl h2 e1 e2 e3 e4
    induction h1 with
    | nil => rfl
    | cons k1 _ ih => rw [List.map_cons, List.sum_cons, ih, k1.count, List.flatten_cons, List.map_append, List.sum_append]
  · intro w hw
    cases h1 with
    | nil => cases hw
    | @cons x y xs ys k1 k2 =>
      cases k2 with
      | nil =>
        rw [List.flatten_cons, List.flatten_nil, List.append_nil] at hw
        rw [h2.single y rfl, k1.single w hw]
      | cons k2 k3 =>
        have n1 := k1.ne
        have n2 := k2.ne
        rw [List.flatten_cons, List.flatten_cons] at hw
        have := congrArg List.length hw
        simp only [List.length_append, List.length_singleton] at this
        have p1 := List.length_pos_iff.mpr n1
        have p2 := List.length_pos_iff.mpr n2
        omega
  · intro hn
    rw [h2.text fun h => hn (.inr h)]
    clear hf hl h2 e1 e2 e3 e4
    induction h1 with
    | nil => rfl
    | cons k1 _ ih => rw [List.map_cons, List.flatten_cons, ih, k1.text fun h => hn (.inl h), List.flatten_cons, List.map_append, List.flatten_append]

theorem GroupedBy.trans {d1 r1 d2 r2 : Prop} {ts mid out : List FToken} (h1 : GroupedBy d1 r1 ts mid) (h2 : GroupedBy d2 r2 mid out) : GroupedBy (d1 ∨ d2) (r1 ∨ r2) ts out := by
  obtain ⟨gs, a1, a2, a3⟩ := h1
  obtain ⟨hs, b1, b2, b3⟩ := h2
  have : ∃ gs' : List (List FToken), gs'.Sublist gs ∧ (¬ d2 → gs' = gs) ∧ List.Forall₂ (Covers r1) gs' hs.flatten := by
    by_cases hd : d2
    · obtain ⟨gs', c1, c2⟩ := forall2_sublist a3 b1
      exact ⟨gs', c1, fun hn => absurd hd hn, c2⟩
    · exact ⟨gs, List.Sublist.refl _, fun _ => rfl, by rw [b2 hd]; exact a3⟩
  obtain ⟨gs', c1, c2, c3⟩ := this
  obtain ⟨gss, e1, e2⟩ := forall2_split c3
  have hfl : (gss.map List.flatten).flatten = gs'.flatten := by rw [← e1, List.flatten_flatten]
  refine ⟨gss.map List.flatten, by rw [hfl]; exact (sublist_flatten c1).trans a1, fun hn => ?_, ?_⟩
  · rw [hfl, c2 fun h => hn (.inr h)]
    exact a2 fun h => hn (.inl h)
  · rw [List.forall₂_map_left_iff]
    exact forall2_trans (fun (g : List (List FToken)) (b : List FToken) (t : FToken) (k1 : List.Forall₂ (Covers r1) g b) (k2 : Covers r2 b t) => Covers.trans k1 k2) e2 b3

theorem rewriteText_grouped {g : FToken → R Str} {ts out : List FToken} (h : rewriteText g ts = .ok out) : GroupedBy False True ts out := by
  refine ⟨ts.map ([·]), by rw [flatten_ones], fun _ => flatten_ones ts, ?_⟩
  rw [List.forall₂_map_left_iff]
  refine (rewriteText_ok.mp h).imp ?_
  rintro t t' ⟨s, _, rfl⟩
  exact ⟨⟨t, t, rfl, rfl, rfl, rfl, rfl, rfl⟩, by simp, by rintro w hw; cases hw; rfl, fun hn => absurd trivial hn⟩

theorem retain_grouped {p : FToken → R Bool} {ts out : List FToken} (h : retain p ts = .ok out) : GroupedBy True False ts out := by
  obtain ⟨q, -, rfl⟩ := retain_ok_iff.mp h
  exact ⟨_, by rw [flatten_ones]; exact List.filter_sublist, fun hn => absurd trivial hn, covers_all _⟩

theorem CompoundWord.fold_grouped (f : CompoundWord) : ∀ (ts done : List FToken) (st st' : List FToken × Option FToken), ts.foldlM f.step st = .ok st' →
    GroupedBy False False done (st.1 ++ st.2.toList) → GroupedBy False False (done ++ ts) (st'.1 ++ st'.2.toList) := by
  intro ts
  induction ts with
  | nil =>
    intro done st st' h hl
    cases h
    simpa using hl
  | cons t ts ih =>
    intro done st st' h hl
    rw [List.foldlM_cons, bind_eq_ok] at h
    obtain ⟨mid, h1, h2⟩ := h
    rw [show done ++ t :: ts = (done ++ [t]) ++ ts by simp]
    refine ih (done ++ [t]) mid st' h2 ?_
    obtain ⟨gs, a1, a2, a3⟩ := hl
    have a2 := a2 id
    obtain ⟨xs, c⟩ := st
    have add : GroupedBy False False (done ++ [t]) (xs ++ c.toList ++ [t]) :=
      ⟨gs ++ [[t]], by rw [← a2]; simp, fun _ => by rw [← a2]; simp, List.rel_append a3 (.cons (.one t) .nil)⟩
    unfold CompoundWord.step at h1
    rw [bind_eq_ok] at h1
    obtain ⟨pos, -, h1⟩ := h1
    unfold CompoundWord.place at h1
    split at h1
    · cases c with
      | none => cases h1; simpa using add
      | some c =>
        dsimp only at h1
        rw [bind_eq_ok] at h1
        obtain ⟨m, hm, h1⟩ := h1
        cases h1
        unfold CompoundWord.concat at hm
        rw [bind_eq_ok] at hm
        obtain ⟨d, -, hm⟩ := hm
        cases hm
        simp only [Option.toList_some] at a3 ⊢
        have k1 := List.forall₂_take_append _ _ _ a3
        have k2 := List.forall₂_drop_append _ _ _ a3
        obtain ⟨g, hg⟩ : ∃ g, gs.drop xs.length = [g] := by
          have := k2.length_eq
          exact List.length_eq_one_iff.mp this
        rw [hg] at k2
        have hgs : gs = gs.take xs.length ++ [g] := by rw [← hg, List.take_append_drop]
        cases k2 with
        | cons k2 _ =>
          have hfl : (gs.take xs.length ++ [g ++ [t]]).flatten = done ++ [t] := by
            rw [← a2]
            conv => rhs; rw [hgs]
            simp
          refine ⟨gs.take xs.length ++ [g ++ [t]], by rw [hfl], fun _ => hfl, List.rel_append k1 (.cons ?_ .nil)⟩
          obtain ⟨a, b, b1, b2, b3, b4, b5, b6⟩ := k2.ends
          refine ⟨⟨a, t, by rw [List.head?_append, b1]; rfl, by simp, b3, rfl, b5, b6⟩, ?_, ?_, fun hn => ?_⟩
          · show c.positionLength + t.positionLength = _
            rw [k2.count]; simp
          · intro w hw
            have := congrArg List.length hw
            simp only [List.length_append, List.length_singleton] at this
            have := List.length_pos_iff.mpr k2.ne
            omega
          · show c.text ++ t.text = _
            rw [k2.text hn]; simp
    · cases c with
      | none => cases h1; simpa using add
      | some c => cases h1; simpa using add

theorem CompoundWord.apply_grouped (f : CompoundWord) {ts out : List FToken} (h : f.apply ts = .ok out) : GroupedBy False False ts out := by
  unfold CompoundWord.apply at h
  rw [bind_eq_ok] at h
  obtain ⟨st, h1, h2⟩ := h
  have := f.fold_grouped ts [] _ _ h1 ⟨[], by simp, fun _ => rfl, .nil⟩
  obtain ⟨done, c⟩ := st
  cases c with
  | none => cases h2; simpa using this
  | some c => cases h2; simpa using this

theorem setting_grouped {env : FilterEnv} {s : TokenFilterSetting} {f : TokenFilter} (hf : s.new env = .ok f) {ts out : List FToken} (h : f ts = .ok out) :
    GroupedBy (Drops s) (Rewrites s) ts out := by
  cases s with
  | japaneseCompoundWord kind tags newTag =>
    unfold TokenFilterSetting.new at hf
    rw [bind_eq_ok] at hf
    obtain ⟨g, -, hf⟩ := hf
    cases hf
    exact g.apply_grouped h
  | japaneseKeepTags tags =>
    unfold TokenFilterSetting.new at hf
    rw [bind_eq_ok] at hf
    obtain ⟨g, -, hf⟩ := hf
    cases hf
    exact retain_grouped h
  | japaneseStopTags tags =>
    unfold TokenFilterSetting.new at hf
    rw [bind_eq_ok] at hf
    obtain ⟨g, -, hf⟩ := hf
    cases hf
    exact retain_grouped h
  | japaneseNumber tags =>
    unfold TokenFilterSetting.new at hf
    rw [bind_eq_ok] at hf
    obtain ⟨g, -, hf⟩ := hf
    cases hf
    exact rewriteText_grouped h
  | mapping m =>
    unfold TokenFilterSetting.new at hf
    rw [bind_eq_ok] at hf
    obtain ⟨g, -, hf⟩ := hf
    cases hf
    exact rewriteText_grouped h
  | keepWords _ => cases hf; exact retain_grouped h
  | stopWords _ => cases hf; exact retain_grouped h
  | koreanKeepTags _ => cases hf; exact retain_grouped h
  | koreanStopTags _ => cases hf; exact retain_grouped h
  | length _ _ => cases hf; exact retain_grouped h
  | japaneseBaseForm _ => cases hf; exact rewriteText_grouped h
  | japaneseReadingForm _ => cases hf; exact rewriteText_grouped h
  | koreanReadingForm => cases hf; exact rewriteText_grouped h
  | japaneseKana _ => cases hf; exact rewriteText_grouped h
  | japaneseKatakanaStem _ => cases hf; exact rewriteText_grouped h
  | lowercase => cases hf; exact rewriteText_grouped h
  | uppercase => cases hf; exact rewriteText_grouped h

theorem filters_grouped {env : FilterEnv} {ss : List TokenFilterSetting} {fs : List TokenFilter} (hs : List.Forall₂ (fun s f => s.new env = .ok f) ss fs) : ∀ (ts out : List FToken),
    fs.foldlM (fun ts f => f ts) ts = .ok out → GroupedBy (∃ s ∈ ss, Drops s) (∃ s ∈ ss, Rewrites s) ts out := by
  induction hs with
  | nil =>
    intro ts out h
    cases h
    exact ⟨ts.map ([·]), by rw [flatten_ones], fun _ => flatten_ones ts, covers_all ts⟩
  | @cons s f ss fs h1 _ ih =>
    intro ts out h
    rw [List.foldlM_cons, bind_eq_ok] at h
    obtain ⟨mid, k1, k2⟩ := h
    refine ((setting_grouped h1 k1).trans (ih mid out k2)).mono ?_ ?_
    · rintro (h | ⟨s', m, h⟩)
      · exact ⟨s, by simp, h⟩
      · exact ⟨s', by simp [m], h⟩
    · rintro (h | ⟨s', m, h⟩)
      · exact ⟨s, by simp, h⟩
      · exact ⟨s', by simp [m], h⟩

/-- `t'` is `t` with the offsets that `c` gives. -/
def Corrected (c : Nat → R Nat) (t t' : FToken) : Prop :=
  c t.byteStart = .ok t'.byteStart ∧ c t.byteEnd = .ok t'.byteEnd ∧ t' = { t with byteStart := t'.byteStart, byteEnd := t'.byteEnd }

theorem corrected_of (tables : List (OffsetTable × Nat)) : ∃ c : Nat → R Nat, ∀ t t' : FToken, tables.foldlM FToken.correctBy t = .ok t' → Corrected c t t' := by
  refine ⟨fun o => tables.foldlM (fun o tb => tb.1.correct o tb.2) o, ?_⟩
  induction tables with
  | nil => intro t t' h; cases h; exact ⟨rfl, rfl, rfl⟩
  | cons tb tables ih =>
    intro t t' h
    rw [List.foldlM_cons, bind_eq_ok] at h
    obtain ⟨mid, h1, h2⟩ := h
    unfold FToken.correctBy at h1
    simp only [bind_eq_ok] at h1
    obtain ⟨s, hs, e, he, h1⟩ := h1
    cases h1
    obtain ⟨k1, k2, k3⟩ := ih _ _ h2
    exact ⟨by dsimp only; rw [List.foldlM_cons, hs]; exact k1, by dsimp only; rw [List.foldlM_cons, he]; exact k2, k3⟩

theorem Covers.corrected {r : Prop} {c : Nat → R Nat} {g g' : List FToken} {t t' : FToken} (hg : List.Forall₂ (Corrected c) g g') (ht : Corrected c t t') (h : Covers r g t) : Covers r g' t' := by
  obtain ⟨f, l, hf, hl, e1, e2, e3, e4⟩ := h.ends
  obtain ⟨t1, t2, t3⟩ := ht
  have hsame : ∀ {x x' : FToken}, Corrected c x x' → x'.position = x.position ∧ x'.wordId = x.wordId ∧ x'.positionLength = x.positionLength ∧ x'.details = x.details ∧ x'.text = x.text := by
    rintro x x' ⟨-, -, h⟩
    rw [h]
    exact ⟨rfl, rfl, rfl, rfl, rfl⟩
  obtain ⟨u1, u2, u3, u4, u5⟩ := hsame ⟨t1, t2, t3⟩
  refine ⟨?_, ?_, ?_, ?_⟩
  · have hfirst : ∃ f', g'.head? = some f' ∧ Corrected c f f' := by
      cases hg with
      | nil => cases hf
      | cons k _ => cases hf; exact ⟨_, rfl, k⟩
    have hlast : ∃ l', g'.getLast? = some l' ∧ Corrected c l l' := by
      clear h hf hfirst e1 e2 e3 e4
      induction hg with
      | nil => cases hl
      | cons k1 k2 ih =>
        cases k2 with
        | nil => cases hl; exact ⟨_, rfl, k1⟩
        | cons k2 k3 =>
          obtain ⟨l', b1, b2⟩ := ih (by simpa using hl)
          exact ⟨l', by simpa using b1, b2⟩
    obtain ⟨f', a1, a2⟩ := hfirst
    obtain ⟨l', b1, b2⟩ := hlast
    obtain ⟨v1, v2, -⟩ := hsame a2
    refine ⟨f', l', a1, b1, ?_, ?_, by rw [u1, v1, e3], by rw [u2, v2, e4]⟩
    · have := a2.1
      rw [← e1, t1] at this
      exact Except.ok.inj this
    · have := b2.2.1
      rw [← e2, t2] at this
      exact Except.ok.inj this
  · rw [u3, h.count]
    clear h hf hl e1 e2 e3 e4
    induction hg with
    | nil => rfl
    | cons k _ ih => rw [List.map_cons, List.sum_cons, ih, List.map_cons, List.sum_cons, (hsame k).2.2.1]
  · rintro w rfl
    cases hg with
    | cons k1 k2 =>
      cases k2
      rw [u4, (hsame k1).2.2.2.1, h.single _ rfl]
  · intro hn
    rw [u5, h.text hn]
    clear h hf hl e1 e2 e3 e4
    induction hg with
    | nil => rfl
    | cons k _ ih => rw [List.map_cons, List.flatten_cons, ih, List.map_cons, List.flatten_cons, (hsame k).2.2.2.2]

theorem forall2_flip {α β : Type} {R : α → β → Prop} {as : List α} {bs : List β} (h : List.Forall₂ R as bs) : List.Forall₂ (fun b a => R a b) bs as := by
  induction h with
  | nil => exact .nil
  | cons h _ ih => exact .cons h ih

theorem GroupedBy.corrected {d r : Prop} {c : Nat → R Nat} {ts ts' out out' : List FToken} (h1 : List.Forall₂ (Corrected c) ts ts') (h2 : List.Forall₂ (Corrected c) out out')
    (h : GroupedBy d r ts out) : GroupedBy d r ts' out' := by
  obtain ⟨gs, a1, a2, a3⟩ := h
  have : ∃ fl : List FToken, fl.Sublist ts' ∧ (¬ d → fl = ts') ∧ List.Forall₂ (fun b a => Corrected c a b) fl gs.flatten := by
    by_cases hd : d
    · obtain ⟨fl, c1, c2⟩ := forall2_sublist (forall2_flip h1) a1
      exact ⟨fl, c1, fun hn => absurd hd hn, c2⟩
    · exact ⟨ts', List.Sublist.refl _, fun _ => rfl, by rw [a2 hd]; exact forall2_flip h1⟩
  obtain ⟨fl, c1, c2, c3⟩ := this
  obtain ⟨gs', e1, e2⟩ := forall2_split c3
  refine ⟨gs', by rw [e1]; exact c1, fun hn => by rw [e1]; exact c2 hn, ?_⟩
  have e3 := forall2_trans (T := fun g' t => ∃ g, List.Forall₂ (Corrected c) g g' ∧ Covers r g t) (S := Covers r) (fun _ b _ k1 k2 => ⟨b, forall2_flip k1, k2⟩) e2 a3
  exact forall2_trans (fun _ _ _ ⟨g, k1, k2⟩ k3 => Covers.corrected k1 k3 k2) e3 h2

theorem analyzed_length {t : Tokenizer} {text : Str} {toks : List Token} (h : t.tokenize text = .ok toks) {fts : List FToken}
    (hf : toks.mapM (Token.analyzed t.dictionary t.userDictionary) = .ok fts) : ∀ f ∈ fts, f.positionLength = 1 := by
  obtain ⟨segs, -, rfl⟩ := tokenize_spec h
  rw [mapM_ok_iff] at hf
  have key : ∀ (ws : List Word) (b p : Nat), ∀ k ∈ tokensFor b p ws, k.positionLength = 1 := by
    intro ws
    induction ws with
    | nil => intro b p k hk; simp [tokensFor] at hk
    | cons w ws ih =>
      intro b p k hk
      rw [tokensFor] at hk
      rcases List.mem_cons.mp hk with rfl | hk
      · rfl
      · exact ih _ _ k hk
  have key := key segs.flatten 0 0
  generalize tokensFor 0 0 segs.flatten = ks at hf key
  induction hf with
  | nil => simp
  | @cons k f ks fs h1 _ ih =>
    intro f' hf'
    rcases List.mem_cons.mp hf' with rfl | hf'
    · have := key k (by simp)
      unfold Token.analyzed at h1
      rw [bind_eq_ok] at h1
      obtain ⟨⟨d, tok'⟩, -, h1⟩ := h1
      dsimp only at h1
      split at h1
      · cases h1; exact this
      · cases h1
    · exact ih (fun k hk => key k (by simp [hk])) f' hf'

/-- The words lie one behind the other from byte `b` on. -/
def Tiled : Nat → List FToken → Prop
  | _, [] => True
  | b, w :: ws => w.byteStart = b ∧ w.byteEnd = b + blen w.text ∧ Tiled (b + blen w.text) ws

theorem tiled_append {xs ys : List FToken} : ∀ {b : Nat}, Tiled b (xs ++ ys) ↔ Tiled b xs ∧ Tiled (b + blen (xs.map (·.text)).flatten) ys := by
  induction xs with
  | nil => intro b; simp [Tiled, blen_nil]
  | cons x xs ih =>
    intro b
    rw [List.cons_append, Tiled, Tiled, ih, List.map_cons, List.flatten_cons, blen_append, Nat.add_assoc]
    simp only [and_assoc]

theorem tiled_last {ws : List FToken} : ∀ {b : Nat} {l : FToken}, Tiled b ws → ws.getLast? = some l → l.byteEnd = b + blen (ws.map (·.text)).flatten := by
  induction ws with
  | nil => intro b l _ h; cases h
  | cons w ws ih =>
    intro b l h hl
    rw [List.map_cons, List.flatten_cons, blen_append]
    cases ws with
    | nil =>
      simp only [List.getLast?_singleton, Option.some.injEq] at hl
      subst hl
      rw [h.2.1]
      simp [blen_nil]
    | cons v vs =>
      rw [ih h.2.2 (by simpa using hl)]
      omega

theorem tiled_words {t : Tokenizer} {text : Str} {toks : List Token} (h : t.tokenize text = .ok toks) {fts : List FToken}
    (hf : toks.mapM (Token.analyzed t.dictionary t.userDictionary) = .ok fts) : Tiled 0 fts ∧ fts.map (·.text) = toks.map (·.text) := by
  obtain ⟨segs, -, rfl⟩ := tokenize_spec h
  rw [mapM_ok_iff] at hf
  have key : ∀ (ws : List Word) (b p : Nat) (fts : List FToken), List.Forall₂ (fun a c => Token.analyzed t.dictionary t.userDictionary a = .ok c) (tokensFor b p ws) fts →
      Tiled b fts ∧ fts.map (·.text) = (tokensFor b p ws).map (·.text) := by
    intro ws
    induction ws with
    | nil => intro b p fts h; cases h; exact ⟨trivial, rfl⟩
    | cons w ws ih =>
      intro b p fts h
      rw [tokensFor] at h ⊢
      cases h with
      | cons h1 h2 =>
        rename_i c fts
        obtain ⟨k1, k2⟩ := ih _ _ _ h2
        have hc : c.byteStart = b ∧ c.byteEnd = b + blen w.surface ∧ c.text = w.surface := by
          unfold Token.analyzed at h1
          rw [bind_eq_ok] at h1
          obtain ⟨⟨d, tok'⟩, -, h1⟩ := h1
          dsimp only at h1
          split at h1
          · cases h1; exact ⟨rfl, rfl, rfl⟩
          · cases h1
        refine ⟨⟨hc.1, by rw [hc.2.1, hc.2.2], by rw [hc.2.2]; exact k1⟩, ?_⟩
        rw [List.map_cons, List.map_cons, k2, hc.2.2]
  exact key _ _ _ _ hf

theorem groups_slices {groups : List (List FToken)} {out : List FToken} (h : List.Forall₂ StandsFor groups out)
    (ht : List.Forall₂ (fun g t => t.text = (g.map (·.text)).flatten) groups out) : ∀ pre : Str, Tiled (blen pre) groups.flatten →
    (out.map (·.text)).flatten = (groups.flatten.map (·.text)).flatten ∧ ∀ t ∈ out, sliceBytes (pre ++ (out.map (·.text)).flatten) t.byteStart t.byteEnd = some t.text := by
  induction h with
  | nil => intro pre _; simp
  | @cons g t gs ts h1 _ ih =>
    cases ht with
    | cons e1 e2 =>
      intro pre hp
      rw [List.flatten_cons, tiled_append] at hp
      obtain ⟨p1, p2⟩ := hp
      rw [← e1, ← blen_append] at p2
      obtain ⟨i1, i2⟩ := ih e2 _ p2
      refine ⟨by rw [List.map_cons, List.flatten_cons, i1, e1, List.flatten_cons, List.map_append, List.flatten_append], fun t' ht' => ?_⟩
      rw [List.map_cons, List.flatten_cons, ← List.append_assoc]
      rcases List.mem_cons.mp ht' with rfl | ht'
      · obtain ⟨f, l, a1, a2, a3, a4, -⟩ := h1.ends
        have hs : f.byteStart = blen pre := by
          cases g with
          | nil => cases a1
          | cons x g => cases a1; exact p1.1
        rw [a3, a4, hs, tiled_last p1 a2, ← e1]
        exact sliceBytes_append _ _ _
      · exact i2 t' ht'

/-- A word with, if `r`, another text. -/
def Retold (r : Prop) (w t : FToken) : Prop := t = { w with text := t.text } ∧ (¬ r → t = w)

def KeptFrom (d r : Prop) (ts out : List FToken) : Prop := ∃ ws : List FToken, ws.Sublist ts ∧ (¬ d → ws = ts) ∧ List.Forall₂ (Retold r) ws out

theorem retold_refl {r : Prop} (ts : List FToken) : List.Forall₂ (Retold r) ts ts := by
  rw [List.forall₂_same]
  exact fun t _ => ⟨rfl, fun _ => rfl⟩

theorem KeptFrom.trans {d1 r1 d2 r2 : Prop} {ts mid out : List FToken} (h1 : KeptFrom d1 r1 ts mid) (h2 : KeptFrom d2 r2 mid out) : KeptFrom (d1 ∨ d2) (r1 ∨ r2) ts out := by
  obtain ⟨ws, a1, a2, a3⟩ := h1
  obtain ⟨vs, b1, b2, b3⟩ := h2
  have : ∃ ws' : List FToken, ws'.Sublist ws ∧ (¬ d2 → ws' = ws) ∧ List.Forall₂ (Retold r1) ws' vs := by
    by_cases hd : d2
    · obtain ⟨ws', c1, c2⟩ := forall2_sublist a3 b1
      exact ⟨ws', c1, fun hn => absurd hd hn, c2⟩
    · exact ⟨ws, List.Sublist.refl _, fun _ => rfl, by rw [b2 hd]; exact a3⟩
  obtain ⟨ws', c1, c2, c3⟩ := this
  refine ⟨ws', c1.trans a1, fun hn => by rw [c2 fun h => hn (.inr h), a2 fun h => hn (.inl h)], forall2_trans ?_ c3 b3⟩
  rintro a b c ⟨k1, k2⟩ ⟨k3, k4⟩
  refine ⟨?_, fun hn => by rw [k4 fun h => hn (.inr h), k2 fun h => hn (.inl h)]⟩
  rw [k3, k1]

theorem rewriteText_kept {g : FToken → R Str} {ts out : List FToken} (h : rewriteText g ts = .ok out) : KeptFrom False True ts out := by
  refine ⟨ts, List.Sublist.refl _, fun _ => rfl, (rewriteText_ok.mp h).imp ?_⟩
  rintro t t' ⟨s, _, rfl⟩
  exact ⟨rfl, fun hn => absurd trivial hn⟩

theorem retain_kept {p : FToken → R Bool} {ts out : List FToken} (h : retain p ts = .ok out) : KeptFrom True False ts out := by
  obtain ⟨q, -, rfl⟩ := retain_ok_iff.mp h
  exact ⟨_, List.filter_sublist, fun hn => absurd trivial hn, retold_refl _⟩

theorem setting_kept {env : FilterEnv} {s : TokenFilterSetting} {f : TokenFilter} (hf : s.new env = .ok f) (hs : ¬ Merges s) {ts out : List FToken} (h : f ts = .ok out) :
    KeptFrom (Drops s) (Rewrites s) ts out := by
  cases s with
  | japaneseCompoundWord kind tags newTag => exact absurd trivial hs
  | japaneseKeepTags tags =>
    unfold TokenFilterSetting.new at hf
    rw [bind_eq_ok] at hf
    obtain ⟨g, -, hf⟩ := hf
    cases hf
    exact retain_kept h
  | japaneseStopTags tags =>
    unfold TokenFilterSetting.new at hf
    rw [bind_eq_ok] at hf
    obtain ⟨g, -, hf⟩ := hf
    cases hf
    exact retain_kept h
  | japaneseNumber tags =>
    unfold TokenFilterSetting.new at hf
    rw [bind_eq_ok] at hf
    obtain ⟨g, -, hf⟩ := hf
    cases hf
    exact rewriteText_kept h
  | mapping m =>
    unfold TokenFilterSetting.new at hf
    rw [bind_eq_ok] at hf
    obtain ⟨g, -, hf⟩ := hf
    cases hf
    exact rewriteText_kept h
  | keepWords _ => cases hf; exact retain_kept h
  | stopWords _ => cases hf; exact retain_kept h
  | koreanKeepTags _ => cases hf; exact retain_kept h
  | koreanStopTags _ => cases hf; exact retain_kept h
  | length _ _ => cases hf; exact retain_kept h
  | japaneseBaseForm _ => cases hf; exact rewriteText_kept h
  | japaneseReadingForm _ => cases hf; exact rewriteText_kept h
  | koreanReadingForm => cases hf; exact rewriteText_kept h
  | japaneseKana _ => cases hf; exact rewriteText_kept h
  | japaneseKatakanaStem _ => cases hf; exact rewriteText_kept h
  | lowercase => cases hf; exact rewriteText_kept h
  | uppercase => cases hf; exact rewriteText_kept h

theorem filters_kept {env : FilterEnv} {ss : List TokenFilterSetting} {fs : List TokenFilter} (hs : List.Forall₂ (fun s f => s.new env = .ok f) ss fs) (hm : ∀ s ∈ ss, ¬ Merges s) :
    ∀ (ts out : List FToken), fs.foldlM (fun ts f => f ts) ts = .ok out → KeptFrom (∃ s ∈ ss, Drops s) (∃ s ∈ ss, Rewrites s) ts out := by
  induction hs with
  | nil =>
    intro ts out h
    cases h
    exact ⟨ts, List.Sublist.refl _, fun _ => rfl, retold_refl ts⟩
  | @cons s f ss fs h1 _ ih =>
    intro ts out h
    rw [List.foldlM_cons, bind_eq_ok] at h
    obtain ⟨mid, k1, k2⟩ := h
    obtain ⟨ws, a1, a2, a3⟩ := (setting_kept h1 (hm s (by simp)) k1).trans (ih (fun s hs => hm s (by simp [hs])) mid out k2)
    refine ⟨ws, a1, fun hn => a2 ?_, a3.imp fun w t hw => ⟨hw.1, fun hn => hw.2 ?_⟩⟩
    · rintro (h | ⟨s', m, h⟩)
      · exact hn ⟨s, by simp, h⟩
      · exact hn ⟨s', by simp [m], h⟩
    · rintro (h | ⟨s', m, h⟩)
      · exact hn ⟨s, by simp, h⟩
      · exact hn ⟨s', by simp [m], h⟩

theorem KeptFrom.corrected {d r : Prop} {c : Nat → R Nat} {ts ts' out out' : List FToken} (h1 : List.Forall₂ (Corrected c) ts ts') (h2 : List.Forall₂ (Corrected c) out out')
    (h : KeptFrom d r ts out) : KeptFrom d r ts' out' := by
  obtain ⟨ws, a1, a2, a3⟩ := h
  have : ∃ vs : List FToken, vs.Sublist ts' ∧ (¬ d → vs = ts') ∧ List.Forall₂ (fun b a => Corrected c a b) vs ws := by
    by_cases hd : d
    · obtain ⟨vs, c1, c2⟩ := forall2_sublist (forall2_flip h1) a1
      exact ⟨vs, c1, fun hn => absurd hd hn, c2⟩
    · exact ⟨ts', List.Sublist.refl _, fun _ => rfl, by rw [a2 hd]; exact forall2_flip h1⟩
  obtain ⟨vs, c1, c2, c3⟩ := this
  have e3 := forall2_trans (T := fun v t => ∃ w, Corrected c w v ∧ Retold r w t) (S := Retold r) (fun _ w _ k1 k2 => ⟨w, k1, k2⟩) c3 a3
  refine ⟨vs, c1, c2, forall2_trans ?_ e3 h2⟩
  rintro v t t' ⟨w, ⟨p1, p2, p3⟩, q1, q2⟩ ⟨r1, r2, r3⟩
  have es : t'.byteStart = v.byteStart := by
    rw [q1] at r1
    exact Except.ok.inj (r1.symm.trans p1)
  have ee : t'.byteEnd = v.byteEnd := by
    rw [q1] at r2
    exact Except.ok.inj (r2.symm.trans p2)
  refine ⟨?_, fun hn => ?_⟩
  · rw [r3, p3, es, ee, q1]
  · rw [r3, p3, es, ee, q2 hn]

end Verif.Model
