import Verif.Spec.Determined
import Verif.Proofs.Mapping
import Verif.Proofs.IterationMark
import Verif.Proofs.TokenFilter
import Verif.Proofs.Tokenizer
import Verif.Proofs.Determined
import Verif.Proofs.Number
/-! The specification of an analysis has at most one result. -/
namespace Verif.Model
open Verif.Spec

/-! ### Character filters -/

theorem copied_source (s : Str) : source (copied s) = s := by
  induction s with
  | nil => rfl
  | cons c cs ih => simpa [source, copied] using ih

theorem matches_unique {dst : RegexMatch → Str} {o : Nat} {ms : List RegexMatch} {s : Str} {ps qs : List Piece} (h : Matches dst o ms s ps) (h' : Matches dst o ms s qs) : ps = qs := by
  induction h generalizing qs with
  | done o s => cases h'; rfl
  | hit o m ms gap mt r ps start stop _ ih =>
    generalize hs : gap ++ mt ++ r = s at h'
    cases h' with
    | hit _ _ _ gap' mt' r' qs' start' stop' rest' =>
      rw [List.append_assoc, List.append_assoc] at hs
      obtain ⟨rfl, h2⟩ := prefix_unique hs (by omega)
      obtain ⟨rfl, rfl⟩ := prefix_unique h2 (by omega)
      rw [ih rest']

theorem markGroup_covers {f : IterationMark} {text : Str} {q : Nat} {c : Char} (hq : text[q]? = some c) (hm : IsMark f c) : ∃ s k, MarkGroup f text s k ∧ s ≤ q ∧ q < s + k := by
  classical
  have h1 : ∃ s, s ≤ q ∧ ∀ i, s ≤ i → i ≤ q → ∃ c, text[i]? = some c ∧ IsMark f c := ⟨q, le_rfl, fun i a b => by
    obtain rfl : i = q := by omega
    exact ⟨c, hq, hm⟩⟩
  have h2 : ∃ e, q < e ∧ ∀ c, text[e]? = some c → ¬ IsMark f c := ⟨max (q + 1) text.length, by omega, fun c hc => by
    rw [List.getElem?_eq_none (by omega)] at hc; cases hc⟩
  obtain ⟨hs1, hs2⟩ := Nat.find_spec h1
  obtain ⟨he1, he2⟩ := Nat.find_spec h2
  refine ⟨Nat.find h1, Nat.find h2 - Nat.find h1, ⟨by omega, fun j hj => ?_, fun c hpos hc hmk => ?_, fun c hc => ?_⟩, hs1, by omega⟩
  · by_cases hle : Nat.find h1 + j ≤ q
    · exact hs2 _ (by omega) hle
    · have hmin := Nat.find_min h2 (m := Nat.find h1 + j) (by omega)
      by_contra hn
      exact hmin ⟨by omega, fun c hc hmk => hn ⟨c, hc, hmk⟩⟩
  · refine Nat.find_min h1 (m := Nat.find h1 - 1) (by omega) ⟨by omega, fun i h3 h4 => ?_⟩
    by_cases hi : i = Nat.find h1 - 1
    · exact ⟨c, by rw [hi]; exact hc, hmk⟩
    · exact hs2 i (by omega) h4
  · rw [show Nat.find h1 + (Nat.find h2 - Nat.find h1) = Nat.find h2 by omega] at hc
    exact he2 c hc

theorem pieces_ext {ps qs : List Piece} (h1 : ps.map (·.src) = qs.map (·.src)) (h2 : ps.map (·.dst) = qs.map (·.dst)) : ps = qs := by
  induction ps generalizing qs with
  | nil => cases qs with
    | nil => rfl
    | cons q qs => simp at h1
  | cons p ps ih => cases qs with
    | nil => simp at h1
    | cons q qs =>
      simp only [List.map_cons, List.cons.injEq] at h1 h2
      obtain ⟨a, b⟩ := p
      obtain ⟨c, d⟩ := q
      dsimp only at h1 h2
      rw [ih h1.2 h2.2, h1.1, h2.1]

theorem charCut_unique {env : FilterEnv} {s : CharFilterSetting} (hm : ∀ m, s = .mapping m → MappingOk m) {text : Str} {ps qs : List Piece} (h : CharCut env s text ps)
    (h' : CharCut env s text qs) : ps = qs := by
  cases s with
  | mapping m => exact LongestMatch.unique (hm m rfl) h h'
  | regex p r =>
    obtain ⟨f, h1, h2⟩ := h
    obtain ⟨g, h3, h4⟩ := h'
    rw [h1] at h3
    cases h3
    exact matches_unique h2 h4
  | unicodeNormalize form => exact Eq.trans h (Eq.symm h')
  | iterationMark kanji kana =>
    obtain ⟨h1, out, h2, h3, h4⟩ := h
    obtain ⟨g1, out', g2, g3, g4⟩ := h'
    have l : out.length = text.length := by
      have e := congrArg List.length h2
      have e' := congrArg List.length h1
      simp only [List.length_map] at e e'
      omega
    have l' : out'.length = text.length := by
      have e := congrArg List.length g2
      have e' := congrArg List.length g1
      simp only [List.length_map] at e e'
      omega
    have key : out = out' := by
      apply List.ext_getElem?
      intro q
      cases hc : text[q]? with
      | none =>
        rw [List.getElem?_eq_none_iff] at hc
        rw [List.getElem?_eq_none (by omega), List.getElem?_eq_none (by omega)]
      | some c =>
        by_cases hmk : IsMark ⟨kanji, kana⟩ c
        · obtain ⟨s, k, hg, a, b⟩ := markGroup_covers hc hmk
          have hlt := (List.getElem?_eq_some_iff.mp hc).1
          obtain ⟨d, hd⟩ : ∃ d, text[q - min s k]? = some d := ⟨_, List.getElem?_eq_getElem (by omega)⟩
          have e : s + (q - s) = q := by omega
          have r1 := h4 s k (q - s) c d hg (by omega) (by rw [e]; exact hc) (by rw [e]; exact hd)
          have r2 := g4 s k (q - s) c d hg (by omega) (by rw [e]; exact hc) (by rw [e]; exact hd)
          rw [e] at r1 r2
          rw [r1, r2]
        · rw [h3 q c hc hmk, g3 q c hc hmk]
    subst key
    exact pieces_ext (h1.trans g1.symm) (h2.trans g2.symm)

theorem charChain_unique {env : FilterEnv} {ss : List CharFilterSetting} (hm : ∀ m, .mapping m ∈ ss → MappingOk m) {text : Str} {stages stages' : List (List Piece)} {final final' : Str}
    (h : CharChain env ss text stages final) (h' : CharChain env ss text stages' final') : stages = stages' ∧ final = final' := by
  induction h generalizing stages' final' with
  | nil => cases h'; exact ⟨rfl, rfl⟩
  | cons hsrc hcut _ ih =>
    cases h' with
    | cons hsrc' hcut' hrest' =>
      obtain rfl := charCut_unique (fun m e => hm m (by simp [e])) hcut hcut'
      obtain ⟨rfl, rfl⟩ := ih (fun m e => hm m (by simp [e])) hrest'
      exact ⟨rfl, rfl⟩

/-! ### Segmentation -/

/-- Without the word id. -/
def FToken.bare (t : FToken) : FToken := { t with wordId := ⟨0, true⟩ }

theorem bare_shown {t t' : FToken} (h : t.bare = t'.bare) : FToken.shown t = FToken.shown t' := by
  obtain ⟨a1, a2, a3, a4, a5, a6, a7⟩ := t
  obtain ⟨b1, b2, b3, b4, b5, b6, b7⟩ := t'
  simp only [FToken.bare, FToken.mk.injEq, true_and] at h
  obtain ⟨rfl, rfl, rfl, rfl, rfl, rfl⟩ := h
  rfl

theorem shown_unique {byte pos : Nat} {ws : List Item} {ts ts' : List FToken} (h : Shown byte pos ws ts) (h' : Shown byte pos ws ts') : ts.map FToken.bare = ts'.map FToken.bare := by
  induction h generalizing ts' with
  | nil => cases h'; rfl
  | @cons byte pos w ws t ts h1 h2 h3 h4 h5 h6 _ ih =>
    cases h' with
    | @cons _ _ _ _ t' ts' g1 g2 g3 g4 g5 g6 g =>
      rw [List.map_cons, List.map_cons, ih g]
      congr 1
      obtain ⟨a1, a2, a3, a4, a5, a6, a7⟩ := t
      obtain ⟨b1, b2, b3, b4, b5, b6, b7⟩ := t'
      dsimp only at *
      subst h1 h2 h3 h4 h5 h6 g1 g2 g3 g4 g5 g6
      rfl

theorem chosen_lists {L : Lexicon} {mode : Mode} {ss : List Str} {segs segs' : List (List Item)}
    (h : List.Forall₂ (fun s ws => L.Segmentation mode s ws ∧ (L.CostsFit mode s → L.Chosen mode s ws)) ss segs)
    (h' : List.Forall₂ (fun s ws => L.Segmentation mode s ws ∧ (L.CostsFit mode s → L.Chosen mode s ws)) ss segs') (hno : ∀ s ∈ ss, L.CostsFit mode s) : segs = segs' := by
  induction h generalizing segs' with
  | nil => cases h'; rfl
  | cons h _ ih =>
    cases h' with
    | cons g gs => rw [chosen_unique (h.2 (hno _ (by simp))) (g.2 (hno _ (by simp))), ih gs fun s hs => hno s (by simp [hs])]

theorem segmented_unique {L : Lexicon} {mode : Mode} {text : Str} {ts ts' : List FToken} (h : Segmented L mode text ts) (h' : Segmented L mode text ts')
    (hno : ∀ ss, Sentences text ss → ∀ s ∈ ss, L.CostsFit mode s) : ts.map FToken.bare = ts'.map FToken.bare := by
  obtain ⟨ss, segs, h1, h2, h3⟩ := h
  obtain ⟨ss', segs', g1, g2, g3⟩ := h'
  have e : ss = ss' := (sentences_split h1).symm.trans (sentences_split g1)
  subst e
  obtain rfl := chosen_lists h3 g3 fun s hs => hno ss h1 s hs
  exact shown_unique h2 g2

/-! ### Token filters -/

theorem tagParts_unique {tag : Str} {parts parts' : List Str} (h : TagParts tag parts) (h' : TagParts tag parts') : parts = parts' :=
  h.split.symm.trans h'.split

theorem kept_bare {P : FToken → Prop} (hP : ∀ t, P t ↔ P t.bare) {ts out : List FToken} (h : Kept P ts out) : Kept P (ts.map FToken.bare) (out.map FToken.bare) := by
  induction h with
  | nil => exact .nil
  | keep hp _ ih => exact .keep ((hP _).mp hp) ih
  | drop hn _ ih => exact .drop (fun h => hn ((hP _).mpr h)) ih

theorem retexted_bare {P : FToken → Str → Prop} (hP : ∀ t s, P t s → P t.bare s) {ts out : List FToken} (h : Retexted P ts out) :
    Retexted P (ts.map FToken.bare) (out.map FToken.bare) := by
  unfold Retexted at h ⊢
  induction h with
  | nil => exact .nil
  | cons h _ ih =>
    obtain ⟨s, rfl, hs⟩ := h
    exact .cons ⟨s, rfl, hP _ _ hs⟩ ih

theorem retexted_unique {P : FToken → Str → Prop} {ts out out' : List FToken} (hP : ∀ t ∈ ts, ∀ s s', P t s → P t s' → s = s') (h : Retexted P ts out) (h' : Retexted P ts out') :
    out = out' := by
  unfold Retexted at h h'
  induction h generalizing out' with
  | nil => cases h'; rfl
  | @cons t t' ts ts' h _ ih =>
    cases h' with
    | cons g gs =>
      obtain ⟨s, rfl, hs⟩ := h
      obtain ⟨s', rfl, hs'⟩ := g
      rw [hP t (by simp) s s' hs hs', ih (fun x hx => hP x (by simp [hx])) gs]

theorem runs_tail {tagged : FToken → Prop} {ts : List FToken} {r : List FToken} {rs : List (List FToken)} (h : Runs tagged ts (r :: rs)) : Runs tagged rs.flatten rs :=
  ⟨rfl, fun x hx => h.nonempty x (by simp [hx]), fun x hx => h.kind x (by simp [hx]), fun i a b ha hb => h.maximal (i + 1) a b (by simpa using ha) (by simpa using hb)⟩

theorem runs_head_eq {tagged : FToken → Prop} {ts : List FToken} {r r' : List FToken} {rs rs' : List (List FToken)} (h : Runs tagged ts (r :: rs)) (h' : Runs tagged ts (r' :: rs')) :
    ¬ r.length < r'.length := by
  intro hlt
  have e : r ++ rs.flatten = r' ++ rs'.flatten := by rw [← List.flatten_cons, ← List.flatten_cons, h.flatten, h'.flatten]
  obtain ⟨x, rfl⟩ := List.prefix_of_prefix_length_le (List.prefix_append r rs.flatten) (e ▸ List.prefix_append r' rs'.flatten) (Nat.le_of_lt hlt)
  have hne := h.nonempty r (by simp)
  have hr : ∀ t ∈ r ++ x, tagged t := by
    rcases h'.kind (r ++ x) (by simp) with hk | ⟨t, ht, -⟩
    · exact hk
    · have h1 := List.length_pos_iff.mpr hne
      have h2 := congrArg List.length ht
      simp only [List.length_append, List.length_cons, List.length_nil] at h2 hlt
      omega
  rw [List.append_assoc, List.append_cancel_left_eq] at e
  cases rs with
  | nil =>
    simp only [List.flatten_nil] at e
    have hx : x = [] := (List.append_eq_nil_iff.mp e.symm).1
    simp [hx] at hlt
  | cons r2 rs =>
    refine h.maximal 0 r r2 rfl rfl ⟨fun t ht => hr t (by simp [ht]), ?_⟩
    rcases h.kind r2 (by simp) with hk | ⟨t, rfl, hn⟩
    · exact hk
    · exfalso
      cases x with
      | nil => simp at hlt
      | cons y x =>
        simp only [List.flatten_cons, List.cons_append, List.nil_append, List.cons.injEq] at e
        exact hn (e.1 ▸ hr y (by simp))

theorem runs_unique {tagged : FToken → Prop} {runs : List (List FToken)} : ∀ {ts : List FToken} {runs' : List (List FToken)}, Runs tagged ts runs → Runs tagged ts runs' → runs = runs' := by
  induction runs with
  | nil =>
    intro ts runs' h h'
    cases runs' with
    | nil => rfl
    | cons r' rs' =>
      have e := h.flatten.trans h'.flatten.symm
      simp only [List.flatten_nil, List.flatten_cons] at e
      exact absurd (List.append_eq_nil_iff.mp e.symm).1 (h'.nonempty r' (by simp))
  | cons r rs ih =>
    intro ts runs' h h'
    cases runs' with
    | nil =>
      have e := h.flatten.trans h'.flatten.symm
      simp only [List.flatten_nil, List.flatten_cons] at e
      exact absurd (List.append_eq_nil_iff.mp e).1 (h.nonempty r (by simp))
    | cons r' rs' =>
      have l1 := runs_head_eq h h'
      have l2 := runs_head_eq h' h
      have e : r ++ rs.flatten = r' ++ rs'.flatten := by rw [← List.flatten_cons, ← List.flatten_cons, h.flatten, h'.flatten]
      obtain ⟨rfl, e2⟩ := List.append_inj e (by omega)
      have t1 := runs_tail h
      have t2 := runs_tail h'
      rw [e2] at t1
      rw [ih t1 t2]

theorem runs_bare {tagged : FToken → Prop} (ht : ∀ t, tagged t ↔ tagged t.bare) {ts : List FToken} {runs : List (List FToken)} (h : Runs tagged ts runs) :
    Runs tagged (ts.map FToken.bare) (runs.map (List.map FToken.bare)) := by
  have hall : ∀ r : List FToken, (∀ t ∈ r.map FToken.bare, tagged t) ↔ ∀ t ∈ r, tagged t := by
    intro r
    simp only [List.mem_map, forall_exists_index, and_imp, forall_apply_eq_imp_iff₂]
    exact forall₂_congr fun t _ => (ht t).symm
  refine ⟨by rw [← List.map_flatten, h.flatten], fun r hr => ?_, fun r hr => ?_, fun i r r' hr hr' => ?_⟩
  · obtain ⟨r, hr0, rfl⟩ := List.mem_map.mp hr
    simpa using h.nonempty r hr0
  · obtain ⟨r, hr0, rfl⟩ := List.mem_map.mp hr
    rcases h.kind r hr0 with hk | ⟨t, rfl, hn⟩
    · exact .inl ((hall r).mpr hk)
    · exact .inr ⟨t.bare, rfl, fun h => hn ((ht t).mpr h)⟩
  · rw [List.getElem?_map, Option.map_eq_some_iff] at hr hr'
    obtain ⟨r, hr, rfl⟩ := hr
    obtain ⟨r', hr', rfl⟩ := hr'
    rw [hall, hall]
    exact h.maximal i r r' hr hr'

theorem merged_bare {details : List Str → Prop} {r : List FToken} {t : FToken} (h : Merged details r t) : Merged details (r.map FToken.bare) t.bare := by
  rcases h with rfl | ⟨h1, a, b, h2, h3, h4, h5, h6, h7, h8, h9, h10⟩
  · exact .inl rfl
  · refine .inr ⟨by simpa using h1, a.bare, b.bare, by rw [List.head?_map, h2]; rfl, by rw [List.getLast?_map, h3]; rfl, ?_, h5, h6, h7, ?_, rfl, h10⟩
    · rw [List.map_map]; exact h4
    · rw [List.map_map]; exact h8

theorem merged_unique {details : List Str → Prop} (hd : ∀ a b, details a → details b → a = b) {r : List FToken} {t t' : FToken} (h : Merged details r t) (h' : Merged details r t') :
    t = t' := by
  rcases h with rfl | ⟨h1, a, b, h2, h3, h4, h5, h6, h7, h8, h9, h10⟩
  · rcases h' with h | ⟨g1, -⟩
    · simpa using h
    · simp at g1
  · rcases h' with rfl | ⟨g1, a', b', g2, g3, g4, g5, g6, g7, g8, g9, g10⟩
    · simp at h1
    · rw [h2] at g2
      cases g2
      rw [h3] at g3
      cases g3
      have e := hd _ _ h10 g10
      obtain ⟨a1, a2, a3, a4, a5, a6, a7⟩ := t
      obtain ⟨b1, b2, b3, b4, b5, b6, b7⟩ := t'
      dsimp only at *
      subst h4 h5 h6 h7 h8 h9 g4 g5 g6 g7 g8 g9 e
      rfl

theorem compoundDetails_unique {features : Features} {kind : DictionaryKind} {newTag : Option Str} {a b : List Str} (h : CompoundDetails features kind newTag a)
    (h' : CompoundDetails features kind newTag b) : a = b := by
  obtain ⟨n, hn, h⟩ := h
  obtain ⟨m, hm, h'⟩ := h'
  obtain rfl : n = m := hn.trans hm.symm
  cases newTag with
  | none => exact h.trans h'.symm
  | some tag =>
    obtain ⟨p, hp, rfl⟩ := h
    obtain ⟨q, hq, rfl⟩ := h'
    rw [tagParts_unique hp hq]

theorem forall₂_merged_unique {details : List Str → Prop} (hd : ∀ a b, details a → details b → a = b) {rs : List (List FToken)} {ts ts' : List FToken}
    (h : List.Forall₂ (Merged details) rs ts) (h' : List.Forall₂ (Merged details) rs ts') : ts = ts' := by
  induction h generalizing ts' with
  | nil => cases h'; rfl
  | cons h _ ih =>
    cases h' with
    | cons g gs => rw [merged_unique hd h g, ih gs]

theorem formText_unique {i : Nat} {t : FToken} {s s' : Str} (h : FormText i t s) (h' : FormText i t s') : s = s' := by
  rcases h with ⟨h1, rfl⟩ | ⟨h1, h2⟩ <;> rcases h' with ⟨g1, rfl⟩ | ⟨g1, g2⟩
  · rfl
  · exact absurd h1 g1
  · exact absurd g1 h1
  · rw [h2] at g2; exact Option.some.inj g2

theorem column_unique {C : Nat → Prop} {t : FToken} {s s' : Str} (h : (∀ i, C i → FormText i t s) ∧ ((∀ i, ¬ C i) → s = t.text))
    (h' : (∀ i, C i → FormText i t s') ∧ ((∀ i, ¬ C i) → s' = t.text)) : s = s' := by
  by_cases hc : ∃ i, C i
  · obtain ⟨i, hi⟩ := hc
    exact formText_unique (h.1 i hi) (h'.1 i hi)
  · have hn : ∀ i, ¬ C i := fun i hi => hc ⟨i, hi⟩
    rw [h.2 hn, h'.2 hn]

theorem stemText_unique {min : Nat} {t : FToken} {s s' : Str} (h : StemText min t s) (h' : StemText min t s') : s = s' := by
  rcases h with ⟨h1, h2, h3⟩ | ⟨h1, h2⟩ <;> rcases h' with ⟨g1, g2, g3⟩ | ⟨g1, g2⟩
  · rw [h3] at g3; exact List.append_cancel_right g3
  · exact absurd ⟨h1, h2, _, h3⟩ g1
  · exact absurd ⟨g1, g2, _, g3⟩ h1
  · rw [h2, g2]

theorem asDigit_unique {c x y : Char} (hx : AsDigit c x) (hy : AsDigit c y) : x = y := by
  cases hx with
  | digit h1 h2 =>
    cases hy with
    | digit h3 h4 => exact Option.some.inj ((digitForms_digit h1 h2).symm.trans (digitForms_digit h3 h4))
    | other h => exact absurd h2 (h _ h1)
  | other h =>
    cases hy with
    | digit h3 h4 => exact absurd h4 (h _ h3)
    | other _ => rfl

theorem asDigits_unique {s a b : Str} (h : List.Forall₂ AsDigit s a) (h' : List.Forall₂ AsDigit s b) : a = b := by
  induction h generalizing b with
  | nil => cases h'; rfl
  | cons h _ ih =>
    cases h' with
    | cons g gs => rw [asDigit_unique h g, ih gs]

theorem numberText_unique {tags : Option (List Str)} {t : FToken} (ha : (∃ n, KanjiNumeral n t.text) ∨ ∀ c ∈ t.text, c ∉ unitChars) {s s' : Str} (h : NumberText tags t s)
    (h' : NumberText tags t s') : s = s' := by
  by_cases hc : ∀ ts, tags = some ts → HasTag ts t
  · obtain ⟨h1, h2⟩ := h.1 hc
    obtain ⟨g1, g2⟩ := h'.1 hc
    rcases ha with ⟨n, hn⟩ | ha
    · rw [h1 n hn, g1 n hn]
    · exact asDigits_unique (h2 ha) (g2 ha)
  · simp only [not_forall] at hc
    obtain ⟨ts, hts, hn⟩ := hc
    rw [h.2 ts hts hn, h'.2 ts hts hn]

/-- Token filters do not look at word ids. -/
theorem tokenEffect_bare {env : FilterEnv} {s : TokenFilterSetting} {ts out : List FToken} (h : TokenEffect env s ts out) : TokenEffect env s (ts.map FToken.bare) (out.map FToken.bare) := by
  cases s with
  | japaneseBaseForm kind => exact retexted_bare (fun _ _ h => h) h
  | japaneseCompoundWord kind tags newTag =>
    obtain ⟨runs, h1, h2⟩ := h
    refine ⟨_, runs_bare (fun _ => Iff.rfl) h1, ?_⟩
    rw [List.forall₂_map_left_iff, List.forall₂_map_right_iff]
    exact h2.imp fun _ _ h => merged_bare h
  | japaneseKana k => cases k <;> exact retexted_bare (fun _ _ h => h) h
  | japaneseKatakanaStem min => exact retexted_bare (fun _ _ h => h) h
  | japaneseKeepTags tags => exact kept_bare (fun _ => Iff.rfl) h
  | japaneseNumber tags => exact retexted_bare (fun _ _ h => h) h
  | japaneseReadingForm kind => exact retexted_bare (fun _ _ h => h) h
  | japaneseStopTags tags => exact kept_bare (fun _ => Iff.rfl) h
  | keepWords words => exact kept_bare (fun _ => Iff.rfl) h
  | koreanKeepTags tags => exact kept_bare (fun _ => Iff.rfl) h
  | koreanReadingForm => exact retexted_bare (fun _ _ h => h) h
  | koreanStopTags tags => exact kept_bare (fun _ => Iff.rfl) h
  | length min max => exact kept_bare (fun _ => Iff.rfl) h
  | lowercase => exact retexted_bare (fun _ _ h => h) h
  | mapping m => exact retexted_bare (fun _ _ h => h) h
  | stopWords words => exact kept_bare (fun _ => Iff.rfl) h
  | uppercase => exact retexted_bare (fun _ _ h => h) h

/-- The effect of a token filter on tokens that it is made for is determined. -/
theorem tokenEffect_unique {env : FilterEnv} {s : TokenFilterSetting} (hm : ∀ m, s = .mapping m → MappingOk m) {ts out out' : List FToken} (ha : TokenAccepts env s ts)
    (h : TokenEffect env s ts out) (h' : TokenEffect env s ts out') : out = out' := by
  cases s with
  | japaneseBaseForm kind => refine retexted_unique ?_ h h'; exact fun _ _ _ _ h h' => column_unique h h'
  | japaneseCompoundWord kind tags newTag =>
    obtain ⟨runs, h1, h2⟩ := h
    obtain ⟨runs', g1, g2⟩ := h'
    obtain rfl := runs_unique h1 g1
    exact forall₂_merged_unique (fun _ _ => compoundDetails_unique) h2 g2
  | japaneseKana k => cases k <;> (refine retexted_unique ?_ h h'; exact fun _ _ _ _ h h' => h.trans h'.symm)
  | japaneseKatakanaStem min => refine retexted_unique ?_ h h'; exact fun _ _ _ _ h h' => stemText_unique h h'
  | japaneseKeepTags tags => exact Kept.unique h h'
  | japaneseNumber tags => refine retexted_unique ?_ h h'; exact fun t ht _ _ h h' => numberText_unique (ha t ht).2 h h'
  | japaneseReadingForm kind => refine retexted_unique ?_ h h'; exact fun _ _ _ _ h h' => column_unique h h'
  | japaneseStopTags tags => exact Kept.unique h h'
  | keepWords words => exact Kept.unique h h'
  | koreanKeepTags tags => exact Kept.unique h h'
  | koreanReadingForm => refine retexted_unique ?_ h h'; exact fun _ _ _ _ h h' => formText_unique h h'
  | koreanStopTags tags => exact Kept.unique h h'
  | length min max => exact Kept.unique h h'
  | lowercase => refine retexted_unique ?_ h h'; exact fun _ _ _ _ h h' => h.trans h'.symm
  | mapping m =>
    refine retexted_unique (fun t _ s s' h h' => ?_) h h'
    obtain ⟨ps, h1, -, rfl⟩ := h
    obtain ⟨qs, g1, -, rfl⟩ := h'
    rw [LongestMatch.unique (hm m rfl) h1 g1]
  | stopWords words => exact Kept.unique h h'
  | uppercase => refine retexted_unique ?_ h h'; exact fun _ _ _ _ h h' => h.trans h'.symm

theorem tokenAccepts_bare {env : FilterEnv} {s : TokenFilterSetting} {ts : List FToken} (h : TokenAccepts env s ts) : TokenAccepts env s (ts.map FToken.bare) := by
  have key : ∀ P : FToken → Prop, (∀ t, P t → P t.bare) → (∀ t ∈ ts, P t) → ∀ t ∈ ts.map FToken.bare, P t := by
    intro P hP h t ht
    obtain ⟨t, ht0, rfl⟩ := List.mem_map.mp ht
    exact hP t (h t ht0)
  cases s with
  | japaneseBaseForm kind => exact key _ (fun _ h => h) h
  | japaneseCompoundWord kind tags newTag => exact key _ (fun _ h => h) h
  | japaneseKatakanaStem min => exact key _ (fun _ h => h) h
  | japaneseKeepTags tags => exact key _ (fun _ h => h) h
  | japaneseNumber tags => exact key _ (fun _ h => h) h
  | japaneseReadingForm kind => exact key _ (fun _ h => h) h
  | japaneseStopTags tags => exact key _ (fun _ h => h) h
  | koreanKeepTags tags => exact key _ (fun _ h => h) h
  | koreanReadingForm => exact key _ (fun _ h => h) h
  | koreanStopTags tags => exact key _ (fun _ h => h) h
  | _ => trivial

theorem tokenChain_unique {env : FilterEnv} {ss : List TokenFilterSetting} (hm : ∀ m, .mapping m ∈ ss → MappingOk m) {ts out : List FToken} (h : TokenChain env ss ts out) :
    ∀ {ts' out' : List FToken}, TokenOk env ss ts → TokenChain env ss ts' out' → ts.map FToken.bare = ts'.map FToken.bare → out.map FToken.bare = out'.map FToken.bare := by
  induction h with
  | nil =>
    intro ts' out' _ h' e
    cases h'
    exact e
  | cons heff _ ih =>
    intro ts' out' hok h' e
    cases h' with
    | cons heff' h' =>
      have g1 := tokenEffect_bare heff
      have g2 := tokenEffect_bare heff'
      rw [← e] at g2
      exact ih (fun m hx => hm m (by simp [hx])) (hok.2 _ heff) h' (tokenEffect_unique (fun m hx => hm m (by simp [hx])) (tokenAccepts_bare hok.1) g1 g2)

/-- The specification determines the analysis of a text. -/
theorem analyzes_unique {S : Settings} (hv : S.Valid) {text : Str} (ha : S.Accepts text) (hs : S.Fits text) {out out' : List FToken} (h : S.Analyzes text out) (h' : S.Analyzes text out') :
    out.map FToken.bare = out'.map FToken.bare := by
  obtain ⟨stages, final, ts, fts, h1, h2, h3, rfl⟩ := h
  obtain ⟨stages', final', ts', fts', g1, g2, g3, rfl⟩ := h'
  obtain ⟨rfl, rfl⟩ := charChain_unique hv.charMappings h1 g1
  have e := tokenChain_unique hv.tokenMappings h3 (ha.tokens _ _ _ h1 h2) g3 (segmented_unique h2 g2 fun ss hss => hs _ _ ss h1 hss)
  rw [List.map_map, List.map_map]
  have key : ∀ ts : List FToken, ts.map (FToken.bare ∘ fun t => FToken.withRange t (sourceThrough stages t.byteStart) (sourceThrough stages t.byteEnd)) =
      (ts.map FToken.bare).map fun t => FToken.withRange t (sourceThrough stages t.byteStart) (sourceThrough stages t.byteEnd) := by
    intro ts
    rw [List.map_map]
    rfl
  rw [key, key, e]

end Verif.Model
