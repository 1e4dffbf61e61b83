import Verif.Proofs.Added
import Verif.Props.Added
/-! C77: exactly when decompose mode makes no difference for texts without long words. -/
namespace Verif.Props
open Verif.Model Verif.Spec

private theorem normal_decompose {L : Lexicon} {p : Penalty} {text : Str} {ws : List Item} : ∀ {pre : Str}, L.SegFrom .normal text pre ws → L.SegFrom (.decompose p) text pre ws := by
  induction ws with
  | nil => exact fun h => h
  | cons w ws ih =>
    rintro pre ⟨⟨rest, _, _, ht, _, hw⟩, hrest⟩
    obtain ⟨reach, latest, hs, -⟩ := lex_scan_exists L (.decompose p) text (blen pre)
    refine ⟨⟨rest, reach, latest, ht, hs, ?_⟩, ih hrest⟩
    rcases hw with hw | ⟨-, hw⟩
    · exact .inl hw
    · exact .inr ⟨.inl (by simp), hw⟩

private theorem costFrom_modes {L : Lexicon} {p : Penalty} {ws : List Item} : ∀ {right : UInt16}, (∀ w ∈ ws, 0 ≤ penalty (.decompose p) w.surface) →
    L.costFrom .normal right ws ≤ L.costFrom (.decompose p) right ws ∧
      ((∀ w ∈ ws, penalty (.decompose p) w.surface = 0) → L.costFrom .normal right ws = L.costFrom (.decompose p) right ws) := by
  induction ws with
  | nil => exact fun _ => ⟨Int.le_refl _, fun _ => rfl⟩
  | cons w ws ih =>
    intro right h
    obtain ⟨h1, h2⟩ := ih (right := w.rightId) fun v hv => h v (by simp [hv])
    have h3 := h w (by simp)
    have h4 : penalty .normal w.surface = 0 := rfl
    simp only [Lexicon.costFrom, h4]
    refine ⟨by omega, fun hz => ?_⟩
    rw [h2 fun v hv => hz v (by simp [hv]), hz w (by simp)]

private theorem penalty_nonneg {p : Penalty} (hp1 : 0 ≤ p.kanjiPenalty.toInt) (hp2 : 0 ≤ p.otherPenalty.toInt) (s : Str) : 0 ≤ penalty (.decompose p) s := by
  simp only [penalty]
  split
  · exact Int.le_refl _
  · split
    · exact Int.mul_nonneg (Int.natCast_nonneg _) hp1
    · split
      · exact Int.mul_nonneg (Int.natCast_nonneg _) hp2
      · exact Int.le_refl _

/-- C77, one sentence: if no word chosen in normal mode gets a penalty, decompose mode chooses the same words exactly if those it chooses may be used in normal mode (its unknown words start where normal mode looks
for unknown words). -/
theorem c77_short_exact {L : Lexicon} {p : Penalty} (hp1 : 0 ≤ p.kanjiPenalty.toInt) (hp2 : 0 ≤ p.otherPenalty.toInt) {s : Str} {ws ds : List Item} (h : L.Chosen .normal s ws)
    (h' : L.Chosen (.decompose p) s ds) (hpen : ∀ w ∈ ws, penalty (.decompose p) w.surface = 0) : ws = ds ↔ L.Segmentation .normal s ds := by
  refine ⟨fun e => e ▸ h.segmentation, fun hd => ?_⟩
  by_contra hne
  obtain ⟨hs1, hn1⟩ := lex_segFrom_surfaces h.segmentation
  obtain ⟨hs2, hn2⟩ := lex_segFrom_surfaces h'.segmentation
  rw [List.nil_append] at hs1 hs2
  have nn : ∀ vs : List Item, ∀ w ∈ vs, 0 ≤ penalty (.decompose p) w.surface := fun _ w _ => penalty_nonneg hp1 hp2 w.surface
  have c1 : L.cost .normal ws ≤ L.cost .normal ds := h.cheapest ds hd
  have c2 : L.cost (.decompose p) ds ≤ L.cost (.decompose p) ws := h'.cheapest ws (normal_decompose h.segmentation)
  have c3 : L.cost .normal ws = L.cost (.decompose p) ws := (costFrom_modes (nn ws)).2 hpen
  have c4 : L.cost .normal ds ≤ L.cost (.decompose p) ds := (costFrom_modes (nn ds)).1
  obtain ⟨a, v, a', v', b, rfl, rfl, hv⟩ := common_tail hne (hs1.trans hs2.symm) hn1 hn2
  have k1 := h.keep a v b a' v' rfl hd (by omega)
  have k2 := h'.keep a' v' b a v rfl (normal_decompose h.segmentation) (by omega)
  rcases k1 with k1 | ⟨e1, rest, reach, latest, ht, hsc, q, hq, hall⟩
  · rcases k2 with k2 | ⟨e2, -⟩
    · omega
    · rw [e2] at k1; omega
  · rcases k2 with k2 | ⟨-, rest', reach', latest', ht', hsc', q', hq', hall'⟩
    · rw [e1] at k2; omega
    · have hpre : (a.map (·.surface)).flatten = (a'.map (·.surface)).flatten := by
        have := hs1.trans hs2.symm
        simp only [List.map_append, List.map_cons, List.flatten_append, List.flatten_cons, e1] at this
        exact List.append_cancel_right this
      -- `v'` may be used in normal mode
      have huse : L.Usable .normal s (a'.map (·.surface)).flatten v' := by
        have go : ∀ {xs : List Item} {pre : Str}, L.SegFrom .normal s pre (xs ++ v' :: b) → L.Usable .normal s (pre ++ (xs.map (·.surface)).flatten) v' := by
          intro xs
          induction xs with
          | nil => intro pre hx; simpa using hx.1
          | cons x xs ih => intro pre hx; simpa using ih hx.2
        simpa using go hd
      obtain ⟨rest2, reach2, latest2, ht2, hsc2, hw2⟩ := huse
      rw [← hpre] at ht' hsc' hq' hall' ht2 hsc2 hw2
      have hr : rest' = rest := List.append_cancel_left (ht'.symm.trans ht)
      have hr2 : rest2 = rest := List.append_cancel_left (ht2.symm.trans ht)
      subst hr hr2
      obtain ⟨rfl, -⟩ := lex_scan_unique hsc hsc2
      have up : ∀ {u : Item} {x : Slot}, L.WrittenAt .normal rest2 (blen (a.map (·.surface)).flatten) latest u x →
          L.WrittenAt (.decompose p) rest2 (blen (a.map (·.surface)).flatten) latest' u x := by
        intro u x hx
        cases x with
        | known i => exact hx
        | unknown r i => exact ⟨.inl (by simp), hx.2⟩
      have hle := hall' q (up hq)
      -- the place of `v'` in decompose mode is one in normal mode
      have hdown : L.WrittenAt .normal rest2 (blen (a.map (·.surface)).flatten) latest v' q' := by
        cases q' with
        | known i => exact hq'
        | unknown r i =>
          refine ⟨?_, hq'.2⟩
          rcases hw2 with ⟨g1, g2, g3⟩ | ⟨ho, -⟩
          · exfalso
            have g4 : v' ∈ L.words.filter (·.surface = v'.surface) := by simp [g1]
            obtain ⟨n, hn, g5⟩ := List.getElem_of_mem g4
            have := hall (.known n) ⟨g2, g3, by rw [List.getElem?_eq_getElem hn, g5]⟩
            cases q with
            | known j => exact hle
            | unknown r' j => exact this
          · exact ho
      have := Slot.le_antisymm (hall q' hdown) hle
      subst this
      exact hv (lex_written_unique hq hdown e1)

/-- C77 in terms of the sources: if no token of normal mode gets a penalty, and the words chosen in decompose mode may be used in normal mode, both modes give the same tokens. -/
theorem c77_short_sources {env : BuildEnv} {kind : DictionaryKind} {src : SourceDir} {c : Contents} {user : Option (DictionaryKind × List Row)} (hr : Ready env kind src c user) {p : Penalty}
    (hp1 : 0 ≤ p.kanjiPenalty.toInt) (hp2 : 0 ≤ p.otherPenalty.toInt) {text : Str} {ss : List Str} (hss : Sentences text ss) (hno : ∀ s ∈ ss, (c.lexicon kind user).CostsFit .normal s ∧ (c.lexicon kind user).CostsFit (.decompose p) s)
    {shown : List (Str × Nat × Nat × Nat × Option (List Str))} (h : Tokenizes env kind src user .normal text shown) (hpen : ∀ tok ∈ shown, penalty (.decompose p) tok.1 = 0)
    (hin : ∀ s ∈ ss, ∀ ds, (c.lexicon kind user).Chosen (.decompose p) s ds → (c.lexicon kind user).Segmentation .normal s ds) : Tokenizes env kind src user (.decompose p) text shown := by
  obtain ⟨segs, h1, rfl⟩ := (c82_fitting env hr.yada hr.hashOrder kind src c hr.contents hr.good user hr.user .normal text ss hss (fun s hs => (hno s hs).1) shown).mp h
  obtain ⟨parts, m, u, b1, b2, b3, b4⟩ := c64_source_semantics env hr.yada hr.hashOrder kind src c hr.contents hr.good user hr.user
  obtain ⟨toks, dsegs, b5, b6, -⟩ := b4 (.decompose p) text ss hss
  obtain ⟨dsegs, h2, h3⟩ := (c82_fitting env hr.yada hr.hashOrder kind src c hr.contents hr.good user hr.user (.decompose p) text ss hss (fun s hs => (hno s hs).2) _).mp
    ⟨parts, m, u, toks, b1, b2, b3, b5, b6⟩
  refine (c82_fitting env hr.yada hr.hashOrder kind src c hr.contents hr.good user hr.user (.decompose p) text ss hss (fun s hs => (hno s hs).2) _).mpr ⟨dsegs, h2, ?_⟩
  have hpen' : ∀ w ∈ segs.flatten, penalty (.decompose p) w.surface = 0 := by
    have go : ∀ (ws : List Item) (byte pos : Nat), (∀ tok ∈ Lexicon.tokensFor byte pos ws, penalty (.decompose p) tok.1 = 0) → ∀ w ∈ ws, penalty (.decompose p) w.surface = 0 := by
      intro ws
      induction ws with
      | nil => intro _ _ _ w hw; cases hw
      | cons x xs ih =>
        intro byte pos hx w hw
        rcases List.mem_cons.mp hw with rfl | hw
        · exact hx _ (by simp [Lexicon.tokensFor]; exact .inl rfl)
        · exact ih _ _ (fun tok ht => hx tok (by simp only [Lexicon.tokensFor, List.mem_cons]; exact .inr ht)) w hw
    exact go _ _ _ hpen
  have hsame : segs = dsegs := by
    clear h b5 b6 h3 hpen hss
    induction h1 generalizing dsegs with
    | nil => cases h2; rfl
    | cons g1 _ ih =>
      cases h2 with
      | cons g2 h2 =>
        have e1 := (c77_short_exact hp1 hp2 g1 g2 fun w hw => hpen' w (by simp [hw])).mpr (hin _ (by simp) _ g2)
        rw [e1, ih (fun s hs => hno s (by simp [hs])) (fun s hs => hin s (by simp [hs])) _ h2 (fun w hw => hpen' w (by simp at hw ⊢; exact .inr hw))]
  rw [hsame]

private theorem known_normal {L : Lexicon} {mode : Mode} {text : Str} {ws : List Item} : ∀ {pre : Str}, (∀ w ∈ ws, w.details ≠ ["UNK".toList]) → L.SegFrom mode text pre ws →
    L.SegFrom .normal text pre ws := by
  induction ws with
  | nil => exact fun _ h => h
  | cons w ws ih =>
    rintro pre hn ⟨⟨rest, _, _, ht, _, hw⟩, hrest⟩
    obtain ⟨reach, latest, hs, -⟩ := lex_scan_exists L .normal text (blen pre)
    refine ⟨⟨rest, reach, latest, ht, hs, ?_⟩, ih (fun v hv => hn v (by simp [hv])) hrest⟩
    rcases hw with hw | ⟨-, name, rank, u, l, -, -, -, rfl⟩
    · exact .inl hw
    · exact absurd rfl (hn _ (List.mem_cons_self ..))

private theorem mem_tokensFor {ws : List Item} : ∀ {byte pos : Nat} {w : Item}, w ∈ ws → ∃ b e q, (w.surface, b, e, q, some w.details) ∈ Lexicon.tokensFor byte pos ws := by
  induction ws with
  | nil => intro _ _ _ h; cases h
  | cons x xs ih =>
    intro byte pos w hw
    rcases List.mem_cons.mp hw with rfl | hw
    · exact ⟨byte, byte + blen w.surface, pos, by simp [Lexicon.tokensFor]⟩
    · obtain ⟨b, e, q, h⟩ := ih (byte := byte + blen x.surface) (pos := pos + 1) hw
      exact ⟨b, e, q, by simp only [Lexicon.tokensFor, List.mem_cons]; exact .inr h⟩

/-- C77, no difference for short words: if no token of normal mode gets a penalty, and no token of decompose mode is an unknown word, both modes give the same tokens. -/
theorem c77_known {env : BuildEnv} {kind : DictionaryKind} {src : SourceDir} {c : Contents} {user : Option (DictionaryKind × List Row)} (hr : Ready env kind src c user) {p : Penalty}
    (hp1 : 0 ≤ p.kanjiPenalty.toInt) (hp2 : 0 ≤ p.otherPenalty.toInt) {text : Str} {ss : List Str} (hss : Sentences text ss) (hno : ∀ s ∈ ss, (c.lexicon kind user).CostsFit .normal s ∧ (c.lexicon kind user).CostsFit (.decompose p) s)
    {shown dshown : List (Str × Nat × Nat × Nat × Option (List Str))} (h : Tokenizes env kind src user .normal text shown) (h' : Tokenizes env kind src user (.decompose p) text dshown)
    (hpen : ∀ tok ∈ shown, penalty (.decompose p) tok.1 = 0) (hk : ∀ tok ∈ dshown, tok.2.2.2.2 ≠ some ["UNK".toList]) : shown = dshown := by
  obtain ⟨dsegs, h2, rfl⟩ := (c82_fitting env hr.yada hr.hashOrder kind src c hr.contents hr.good user hr.user (.decompose p) text ss hss (fun s hs => (hno s hs).2) _).mp h'
  have key : Tokenizes env kind src user (.decompose p) text shown := by
    refine c77_short_sources hr hp1 hp2 hss hno h hpen fun s hs ds hd => ?_
    have hmem : ds ∈ dsegs := by
      clear hss hno h' hk
      induction h2 with
      | nil => cases hs
      | cons g1 _ ih =>
        rcases List.mem_cons.mp hs with rfl | hs
        · rw [chosen_unique hd g1]; simp
        · exact List.mem_cons_of_mem _ (ih hs)
    refine known_normal (fun w hw hu => ?_) hd.segmentation
    obtain ⟨b, e, q, ht⟩ := mem_tokensFor (byte := 0) (pos := 0) (List.mem_flatten.mpr ⟨ds, hmem, hw⟩)
    exact hk _ ht (by rw [hu])
  obtain ⟨parts, m, u, toks, g1, g2, g3, g4, g5⟩ := h'
  obtain ⟨parts', m', u', toks', f1, f2, f3, f4, f5⟩ := key
  cases g1.symm.trans f1
  cases g2.symm.trans f2
  cases g3.symm.trans f3
  cases g4.symm.trans f4
  exact Except.ok.inj (f5.symm.trans g5)

/-! ### Non-vacuity -/

/-- The conditions of `c77_known` hold, and so do those of the theorems it is proved from. -/
example : ∃ shown, Tokenizes Dir.env .unidic (Twin.src (Extra.compound.map (·.1))) none .normal "aab".toList shown ∧
    (∀ dshown, Tokenizes Dir.env .unidic (Twin.src (Extra.compound.map (·.1))) none (.decompose Penalty.default) "aab".toList dshown → (∀ tok ∈ dshown, tok.2.2.2.2 ≠ some ["UNK".toList]) → shown = dshown) ∧
    ∃ dshown, Tokenizes Dir.env .unidic (Twin.src (Extra.compound.map (·.1))) none (.decompose Penalty.default) "aab".toList dshown ∧ ∀ tok ∈ dshown, tok.2.2.2.2 ≠ some ["UNK".toList] := by
  have run : Tokenizes Dir.env .unidic (Twin.src (Extra.compound.map (·.1))) none .normal "aab".toList
      [(['a'], 0, 1, 0, some [['y'], ['z']]), (['a'], 1, 2, 1, some [['y'], ['z']]), (['b'], 2, 3, 2, some [['y'], ['w']])] := Extra.run_ok (by decide +kernel)
  exact ⟨_, run, fun dshown h hk => c77_known Extra.compoundReady (by decide) (by decide) (Twin.sentence _ (by decide +kernel))
    (fun s hs => by simp at hs; subst hs; exact ⟨costsFit_of_short (noOverflow_normal (by decide +kernel)), costsFit_of_short (noOverflow_default (by decide +kernel))⟩) run h (by decide +kernel) hk,
    [(['a'], 0, 1, 0, some [['y'], ['z']]), (['a'], 1, 2, 1, some [['y'], ['z']]), (['b'], 2, 3, 2, some [['y'], ['w']])], Extra.run_ok (by decide +kernel), by decide +kernel⟩

end Verif.Props
