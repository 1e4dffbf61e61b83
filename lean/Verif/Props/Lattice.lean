import Verif.Props.Tokenize
/-! Properties C08, C10–C13, C15: candidates, panics, penalties, unknown words. -/
namespace Verif.Props
open Verif.Model Verif.Spec

/-! ### C08 -/

/-- C08: every token is a word of the user or system dictionary with exactly the token's text, or an unknown word proposed at that place of its sentence;
its word id is the entry's. Holds for every dictionary. -/
theorem c08_origin {t : Tokenizer} {text : Str} {toks : List Token} (h : t.tokenize text = .ok toks)
    {ss : List Str} (hss : Sentences text ss) {tok : Token} (ht : tok ∈ toks) :
    ∃ s ∈ ss, ∃ (pre post : Str) (entry : WordEntry), s = pre ++ tok.text ++ post ∧ tok.text ≠ [] ∧ tok.wordId = entry.wordId ∧
      ((∃ u, t.userDictionary = some u ∧ InDict u.dict tok.text entry) ∨ InDict t.dictionary.dict tok.text entry ∨
        UnknownWordAt t.env (tok.text ++ post) ⟨tok.text, entry⟩) := by
  obtain ⟨segs, hf, rfl⟩ := tokenize_spec h
  rw [sentences_split hss] at hf
  obtain ⟨i, hi⟩ := List.getElem?_of_mem ht
  obtain ⟨x, w, y, hws, _, h1, _, _, _, _, h6⟩ := tokensFor_get hi
  obtain ⟨ws, hws', hw⟩ := List.mem_flatten.mp (show w ∈ segs.flatten by rw [hws]; simp)
  have hsent : ∃ s, s ∈ ss ∧ SentenceResult t.env t.dictionary.costMatrix s ws := by
    clear hws h hi ht hss
    induction hf with
    | nil => simp at hws'
    | @cons s ws' ss segs hr _ ih =>
      rcases List.mem_cons.mp hws' with rfl | hin
      · exact ⟨s, by simp, hr⟩
      · obtain ⟨s', hs', hr'⟩ := ih hin
        exact ⟨s', by simp [hs'], hr'⟩
  obtain ⟨s, hs, hr⟩ := hsent
  rcases hr with ⟨hseg, _⟩ | ⟨_, rfl, _⟩
  · obtain ⟨u, v, huv⟩ := List.append_of_mem hw
    have hfrom : SegFrom t.env s (surfaces u) (w :: v) := by
      have h0 : SegFrom t.env s [] (u ++ w :: v) := by rw [← huv]; exact hseg
      have := segFrom_split h0
      simpa using this
    obtain ⟨⟨rest, reach, latest, hrest, _, hwa⟩, _⟩ := hfrom
    obtain ⟨hne, post, hpost⟩ := hwa.ne
    refine ⟨s, hs, surfaces u, post, w.entry, ?_, by rw [h1]; exact hne, h6, ?_⟩
    · rw [hrest, ← hpost, h1, List.append_assoc]
    · rw [h1]
      rcases hwa with hd | ⟨_, hu⟩
      · rcases hd.2.2 with ⟨ud, hud, hin⟩ | hin
        · left
          simp only [Tokenizer.env, Option.map_eq_some_iff] at hud
          obtain ⟨u', hu', rfl⟩ := hud
          exact ⟨u', hu', hin⟩
        · exact .inr (.inl hin)
      · right; right
        rw [hpost]
        exact hu
  · simp at hw

/-- C08, ids: if the unknown-word entries carry the unknown id (as the builder writes them, C24), then a token is a dictionary word or `is_unknown`. -/
theorem c08_ids {t : Tokenizer} (hu : ∀ id w, t.dictionary.unknownDictionary.wordEntry id = .ok w → w.wordId = WordId.default)
    {text : Str} {toks : List Token} (h : t.tokenize text = .ok toks) {tok : Token} (ht : tok ∈ toks) :
    (∃ entry, tok.wordId = entry.wordId ∧ ((∃ u, t.userDictionary = some u ∧ InDict u.dict tok.text entry) ∨
      InDict t.dictionary.dict tok.text entry)) ∨ tok.wordId.isUnknown = true := by
  obtain ⟨_, _, _, post, entry, _, _, hid, hor⟩ := c08_origin h (sentences_exist text) ht
  rcases hor with h1 | h1 | ⟨_, _, _, id, _, _, _, hw⟩
  · exact .inl ⟨entry, hid, .inl h1⟩
  · exact .inl ⟨entry, hid, .inr h1⟩
  · right
    have := hu id _ hw
    rw [hid, show entry.wordId = _ from this]
    rfl

example : ∀ id w, Sample.tok.dictionary.unknownDictionary.wordEntry id = .ok w → w.wordId = WordId.default := by
  intro id w h
  unfold UnkDict.wordEntry at h
  rw [orPanic_eq_ok] at h
  have : w ∈ Sample.unk.costs := List.mem_of_getElem? h
  simp [Sample.unk] at this
  rw [this]

/-! ### C10 -/

/-- C10: on consistent dictionary files `tokenize` returns for every text: no error, no panic, no endless loop. -/
theorem c10_no_panic {t : Tokenizer} (hk : Consistent t) (text : Str) : ∃ toks, t.tokenize text = .ok toks :=
  tokenize_total hk text

example : Consistent Sample.tok ∧ Consistent Sample.tokD := ⟨Sample.consistent _, Sample.consistent _⟩

/-- The hypothesis on context ids is needed: a word whose left id is outside the matrix makes `tokenize` panic. -/
theorem c10_bad_context_id_panics : ∃ (t : Tokenizer) (text : Str), t.tokenize text = .error .panic :=
  ⟨⟨{ Sample.dictionary with unknownDictionary := ⟨[[0]], [⟨WordId.default, 1, 7, 0⟩]⟩ }, none, .normal⟩, ['z'], by decide +kernel⟩

/-! ### C11 -/

theorem mul_i32 (a : Nat) (y : Int32) (h : ((a : Int) * y.toInt).natAbs < 2 ^ 31) :
    (Int32.ofNat a * y).toInt = (a : Int) * y.toInt := by
  have e : Int32.ofNat a * y = Int32.ofInt ((a : Int) * y.toInt) := by
    rw [Int32.ofInt_mul, Int32.ofInt_toInt, Int32.ofInt_eq_ofNat]
  rw [e, Int32.toInt_ofInt_of_le] <;> omega

/-- C11: normal mode charges nothing. -/
theorem c11_normal (e : Edge) : Mode.normal.penaltyCost e = 0 := rfl

/-- C11: every edge of the lattice that stands for the word `s` (it spans the bytes of `s`, and its flag says whether all characters are kanji) is charged the penalty that the specification gives for the text `s`, if
it fits 32 bits. The length of a kanji word is its number of characters. -/
theorem c11_words (mode : Mode) (e : Edge) (s : Str) (hs : e.stopIndex = e.startIndex + blen s)
    (hk : e.kanjiOnly = true ↔ ∀ c ∈ s, '\u4E00' ≤ c ∧ c ≤ '\u9FAF') (hno : maxPenalty mode * charCount s < 2 ^ 31) :
    (mode.penaltyCost e).toInt = penalty mode s ∧ (e.kanjiOnly = true → charCount s = s.length) := by
  have hk' : e.kanjiOnly = s.all isKanjiChar := by
    rw [Bool.eq_iff_iff, hk, List.all_eq_true]
    simp [isKanjiChar]
  constructor
  · have hw : SameWord e (wordEdge e.edgeType e.wordEntry e.startIndex s) := by
      refine ⟨rfl, rfl, rfl, hs, ?_⟩
      rw [hk', ← isKanji_eq]; rfl
    rw [penaltyCost_word hw]
    have := penalty_le mode s
    have h2 : (penalty mode s).natAbs < 2 ^ 31 := Nat.lt_of_le_of_lt this hno
    exact Int32.toInt_ofInt_of_le (by omega) (by omega)
  · intro h
    have hl : blen s = 3 * s.length := by
      have := hk.mp h
      clear hk hk' hs hno h
      induction s with
      | nil => rfl
      | cons c cs ih =>
        have h1 := this c (by simp)
        have h2 : c.utf8Size = 3 := by
          obtain ⟨l1, l2⟩ := h1
          simp only [Char.le_def, UInt32.le_iff_toNat_le] at l1 l2
          have e1 : ('\u4E00' : Char).val.toNat = 0x4E00 := rfl
          have e2 : ('\u9FAF' : Char).val.toNat = 0x9FAF := rfl
          unfold Char.utf8Size
          simp only [UInt32.le_iff_toNat_le, UInt32.toNat_ofNatLT]
          rw [if_neg, if_neg, if_pos]
          all_goals omega
        have := ih fun x hx => this x (by simp [hx])
        simp only [blen, List.length_cons]
        omega
    unfold charCount
    omega

example : ∃ e : Edge, e.stopIndex = e.startIndex + blen "東京都庁".toList ∧ (e.kanjiOnly = true ↔ ∀ c ∈ "東京都庁".toList, '\u4E00' ≤ c ∧ c ≤ '\u9FAF') ∧
    maxPenalty (.decompose Penalty.default) * charCount "東京都庁".toList < 2 ^ 31 ∧ penalty (.decompose Penalty.default) "東京都庁".toList = 6000 :=
  ⟨⟨.known, WordEntry.default, 0, none, 5, 17, true⟩, by decide, by decide, by decide, by decide⟩

/-- C11: the penalty charged in decompose mode for a word of `n` (bytes divided by three) characters, when the product fits 32 bits. -/
theorem c11_decompose (p : Penalty) (e : Edge) {n : Nat} (hn : e.numChars = n)
    (hno : n * (max p.kanjiPenalty.toInt.natAbs p.otherPenalty.toInt.natAbs) < 2 ^ 31) :
    (n ≤ p.kanjiThreshold → ((Mode.decompose p).penaltyCost e).toInt = 0) ∧
    (p.kanjiThreshold < n → e.kanjiOnly = true →
      ((Mode.decompose p).penaltyCost e).toInt = ((n : Int) - p.kanjiThreshold) * p.kanjiPenalty.toInt) ∧
    (p.kanjiThreshold < n → e.kanjiOnly = false → p.otherThreshold < n →
      ((Mode.decompose p).penaltyCost e).toInt = ((n : Int) - p.otherThreshold) * p.otherPenalty.toInt) ∧
    (e.kanjiOnly = false → n ≤ p.otherThreshold → ((Mode.decompose p).penaltyCost e).toInt = 0) := by
  have hmul : ∀ (t : Nat) (y : Int32), t < n → y.toInt.natAbs ≤ max p.kanjiPenalty.toInt.natAbs p.otherPenalty.toInt.natAbs →
      (Int32.ofNat (n - t) * y).toInt = ((n : Int) - t) * y.toInt := by
    intro t y ht hy
    rw [mul_i32]
    · rw [Int.ofNat_sub (by omega)]
    · rw [Int.natAbs_mul, Int.natAbs_natCast]
      exact Nat.lt_of_le_of_lt (Nat.mul_le_mul (Nat.sub_le _ _) hy) hno
  have hdef : (Mode.decompose p).penaltyCost e = p.penalty e := rfl
  have h0 : (0 : Int32).toInt = 0 := rfl
  rw [hdef]
  unfold Penalty.penalty
  simp only [hn]
  refine ⟨?_, ?_, ?_, ?_⟩
  · intro h; rw [if_pos h, h0]
  · intro h hk; rw [if_neg (by omega), if_pos hk, hmul _ _ h (by omega)]
  · intro h hk ho
    rw [if_neg (by omega), if_neg (by simp [hk]), if_pos ho, hmul _ _ ho (by omega)]
  · intro hk ho
    by_cases h : n ≤ p.kanjiThreshold
    · rw [if_pos h, h0]
    · rw [if_neg h, if_neg (by simp [hk]), if_neg (by omega), h0]

/-- C11: with non-negative parameters, penalties are non-negative and do not decrease with the length, among all-kanji words and among the others. -/
theorem c11_monotone (p : Penalty) (hk : 0 ≤ p.kanjiPenalty.toInt) (ho : 0 ≤ p.otherPenalty.toInt) (e e' : Edge)
    (hsame : e.kanjiOnly = e'.kanjiOnly) (hle : e.numChars ≤ e'.numChars)
    (hno : e'.numChars * (max p.kanjiPenalty.toInt.natAbs p.otherPenalty.toInt.natAbs) < 2 ^ 31) :
    0 ≤ ((Mode.decompose p).penaltyCost e).toInt ∧
    ((Mode.decompose p).penaltyCost e).toInt ≤ ((Mode.decompose p).penaltyCost e').toInt := by
  have hno1 : e.numChars * (max p.kanjiPenalty.toInt.natAbs p.otherPenalty.toInt.natAbs) < 2 ^ 31 :=
    Nat.lt_of_le_of_lt (Nat.mul_le_mul_right _ hle) hno
  obtain ⟨a1, a2, a3, a4⟩ := c11_decompose p e rfl hno1
  obtain ⟨b1, b2, b3, b4⟩ := c11_decompose p e' rfl hno
  have mono : ∀ (t : Nat) (y : Int), 0 ≤ y → t < e.numChars →
      0 ≤ ((e.numChars : Int) - t) * y ∧ ((e.numChars : Int) - t) * y ≤ ((e'.numChars : Int) - t) * y := by
    intro t y hy ht
    exact ⟨Int.mul_nonneg (by omega) hy, Int.mul_le_mul_of_nonneg_right (by omega) hy⟩
  have nn : ∀ (t : Nat) (y : Int), 0 ≤ y → t < e'.numChars → 0 ≤ ((e'.numChars : Int) - t) * y := by
    intro t y hy ht
    exact Int.mul_nonneg (by omega) hy
  cases hke : e.kanjiOnly with
  | true =>
    have hke' : e'.kanjiOnly = true := by rw [← hsame, hke]
    by_cases h1 : e.numChars ≤ p.kanjiThreshold
    · rw [a1 h1]
      refine ⟨Int.le_refl _, ?_⟩
      by_cases h2 : e'.numChars ≤ p.kanjiThreshold
      · rw [b1 h2]; exact Int.le_refl _
      · rw [b2 (by omega) hke']; exact nn _ _ hk (by omega)
    · rw [a2 (by omega) hke, b2 (by omega) hke']
      exact mono _ _ hk (by omega)
  | false =>
    have hke' : e'.kanjiOnly = false := by rw [← hsame, hke]
    by_cases h1 : e.numChars ≤ p.kanjiThreshold ∨ e.numChars ≤ p.otherThreshold
    · have : ((Mode.decompose p).penaltyCost e).toInt = 0 := by
        rcases h1 with h | h
        · exact a1 h
        · exact a4 hke h
      rw [this]
      refine ⟨Int.le_refl _, ?_⟩
      by_cases h2 : e'.numChars ≤ p.kanjiThreshold
      · rw [b1 h2]; exact Int.le_refl _
      · by_cases h3 : e'.numChars ≤ p.otherThreshold
        · rw [b4 hke' h3]; exact Int.le_refl _
        · rw [b3 (by omega) hke' (by omega)]; exact nn _ _ ho (by omega)
    · rw [a3 (by omega) hke (by omega), b3 (by omega) hke' (by omega)]
      exact mono _ _ ho (by omega)

/-- Four kanji cost 6000 with the default parameters. -/
example : ((Mode.decompose Penalty.default).penaltyCost (wordEdge .known WordEntry.default 0 ['東', '京', '大', '学'])).toInt = 6000 :=
  by decide

/-! ### C12, C13 -/

/-- The categories at rank `ord` of the characters of `run` are all `cat`, and `run` cannot be extended into `post`. -/
def MaximalRun (cd : CharDefs) (cat ord : Nat) (run post : Str) : Prop :=
  (∀ c ∈ run, ∃ cats, cd.lookupCategories c = .ok cats ∧ cats[ord]? = some cat) ∧
  ∀ c tail, post = c :: tail → ¬ ∃ cats, cd.lookupCategories c = .ok cats ∧ cats[ord]? = some cat

theorem hasCategory_iff {cd : CharDefs} {cat ord : Nat} {c : Char} :
    hasCategory cd cat ord c = true ↔ ∃ cats, cd.lookupCategories c = .ok cats ∧ cats[ord]? = some cat := by
  unfold hasCategory
  cases cd.lookupCategories c <;> simp

/-- C12: every unknown-word edge the lattice holds after `set_text` belongs to a category of its first character; if the category groups, the word is the
maximal run of characters of that category (at the same rank), otherwise it is the one character. -/
theorem c12_maximal_run {l l' : Lattice} (hl : History l) {env : LatticeEnv} {text : Str} (ht : text ≠ [])
    (h : l.setText env text = .ok l') {e : Edge} (he : e ∈ l'.edges) (hu : e.edgeType = .unknown) :
    ∃ (pre : Str) (c : Char) (run post : Str) (cats : List Nat) (cat ord : Nat) (data : CategoryData),
      text = pre ++ c :: run ++ post ∧ e.startIndex = blen pre ∧ e.stopIndex = blen (pre ++ c :: run) ∧
      env.charDefs.lookupCategories c = .ok cats ∧ cats[ord]? = some cat ∧ env.charDefs.lookupDefinition cat = .ok data ∧
      (data.group = true → MaximalRun env.charDefs cat ord run post) ∧ (data.group = false → run = []) := by
  obtain ⟨es, ue, hes, hI⟩ := setText_edges hl.latInv ht h
  have hin : e ∈ es := by
    rw [hes] at he
    rcases List.mem_cons.mp he with rfl | he
    · cases hu
    · rcases List.mem_cons.mp he with rfl | he
      · cases hu
      · exact he
  obtain ⟨_, pre, rest, t, w, ho⟩ := hI.sound e hin
  have hb := ho.bounds
  obtain ⟨htext, _, heq, reach, latest, hscan, hw⟩ := ho
  rcases hw with ⟨rfl, _⟩ | ⟨rfl, _, hunk⟩
  · rw [heq] at hu; cases hu
  · obtain ⟨cat, ord, ids, id, ⟨c, tail, cats, data, hr, hcats, hcat, hdata, _, hs⟩, _⟩ := hunk
    rw [hr] at hs
    simp only [unknownText] at hs
    cases hg : data.group with
    | false =>
      rw [hg] at hs
      simp at hs
      refine ⟨pre, c, [], tail, cats, cat, ord, data, by simp [htext, hr], hb.1, ?_, hcats, hcat, hdata, by simp [hg], fun _ => rfl⟩
      rw [heq]; simp [wordEdge, hs]
    | true =>
      rw [hg, if_pos rfl] at hs
      refine ⟨pre, c, tail.takeWhile (hasCategory env.charDefs cat ord), tail.dropWhile (hasCategory env.charDefs cat ord), cats, cat, ord, data,
        ?_, hb.1, ?_, hcats, hcat, hdata, fun _ => ⟨?_, ?_⟩, by simp [hg]⟩
      · rw [htext, hr]; simp
      · rw [heq]; simp [wordEdge, hs]
      · intro x hx
        have := List.all_takeWhile (l := tail) (p := hasCategory env.charDefs cat ord)
        exact hasCategory_iff.mp (List.all_eq_true.mp this x hx)
      · intro x tl hx hc
        rw [← hasCategory_iff] at hc
        have := List.head?_dropWhile_not (hasCategory env.charDefs cat ord) tail
        rw [hx] at this
        simp [hc] at this

/-- C13: at every position the lattice reaches, the unknown-word edges are exactly the words of the categories of the next character
that are invoked (flag set, or no dictionary word starts there), unless (normal mode) an earlier unknown word still covers the position. -/
theorem c13_when_unknown {l l' : Lattice} (hl : History l) {env : LatticeEnv} {text : Str} (ht : text ≠ [])
    (h : l.setText env text = .ok l') {pre rest : Str} (hsplit : text = pre ++ rest) (hrest : rest ≠ [])
    (hreach : pre = [] ∨ ∃ e ∈ l'.edges, e.stopIndex = blen pre) :
    ∃ reach latest, Scan env text (blen pre) reach latest ∧
      ∀ (surface : Str) (entry : WordEntry),
        (∃ e ∈ l'.edges, e.edgeType = .unknown ∧ e.startIndex = blen pre ∧ e.stopIndex = blen pre + blen surface ∧
          e.wordEntry = entry ∧ surface <+: rest) ↔
        ((env.mode ≠ .normal ∨ ∀ x, latest = some x → x ≤ blen pre) ∧ UnknownWordAt env rest ⟨surface, entry⟩) := by
  obtain ⟨es, ue, hes, hI⟩ := setText_edges hl.latInv ht h
  have hlt : blen pre < blen text := by
    rw [hsplit]; have := blen_pos hrest; simp; omega
  obtain ⟨R, hR, _⟩ := hI.scan
  obtain ⟨reach, latest, hscan⟩ := Scan.truncate hR (blen pre) (by omega)
  have hreached : reached es (blen pre) = true := by
    rcases hreach with rfl | ⟨e, he, hstop⟩
    · simp [reached]
    · rw [hes] at he
      simp only [List.mem_cons] at he
      rcases he with rfl | rfl | he
      · simp [Edge.default] at hstop; simp [reached, ← hstop]
      · simp [Edge.default] at hstop; simp [reached, ← hstop]
      · simp only [reached, Bool.or_eq_true, List.any_eq_true]
        exact .inr ⟨e, he, by simp [hstop]⟩
  refine ⟨reach, latest, hscan, ?_⟩
  intro surface entry
  constructor
  · rintro ⟨e, he, hu, hst, hstop, hent, hpre⟩
    have hin : e ∈ es := by
      rw [hes] at he
      rcases List.mem_cons.mp he with rfl | he
      · cases hu
      · rcases List.mem_cons.mp he with rfl | he
        · cases hu
        · exact he
    obtain ⟨_, pre', rest', t, w, ho⟩ := hI.sound e hin
    have hb := ho.bounds
    obtain ⟨htext, _, heq, reach', latest', hscan', hw⟩ := ho
    obtain ⟨rfl, rfl⟩ := prefix_unique (htext.symm.trans hsplit) (by omega)
    obtain ⟨rfl, _⟩ := hscan'.unique hscan
    have hwne := hw.wordAt.ne
    rcases hw with ⟨rfl, _⟩ | ⟨rfl, hopen, hunk⟩
    · rw [heq] at hu; cases hu
    · have hsurf : w.surface = surface := by
        obtain ⟨q, hq⟩ := hwne.2
        obtain ⟨q', hq'⟩ := hpre
        refine (prefix_unique (hq.trans hq'.symm) ?_).1
        rw [heq] at hstop
        simp [wordEdge] at hstop
        exact hstop
      have hent' : w.entry = entry := by rw [← hent, heq]; rfl
      subst hsurf hent'
      exact ⟨hopen, hunk⟩
  · rintro ⟨hopen, hunk⟩
    have ho : Origin env text es (wordEdge .unknown entry (blen pre) surface) pre rest .unknown ⟨surface, entry⟩ :=
      ⟨hsplit, hreached, rfl, reach, latest, hscan, .inr ⟨rfl, hopen, hunk⟩⟩
    have hin := hI.complete _ _ _ _ _ hlt ho
    exact ⟨wordEdge .unknown entry (blen pre) surface, by rw [hes]; simp [hin], rfl, rfl, rfl, rfl, hunk.ne.2⟩

/-- The hypotheses of C12 and C13 hold, for instance, for the sample dictionary and the text `zza`. -/
example : ∃ l', Lattice.default.setText Sample.tok.env ['z', 'z', 'a'] = .ok l' ∧ History Lattice.default ∧
    ∃ e ∈ l'.edges, e.edgeType = .unknown := by
  refine ⟨lat 3 3 [wordEdge .unknown ⟨WordId.default, 100, 0, 0⟩ 0 ['z', 'z', 'a']], by decide +kernel, .fresh, ?_⟩
  exact ⟨wordEdge .unknown ⟨WordId.default, 100, 0, 0⟩ 0 ['z', 'z', 'a'], by simp [lat, latOf], rfl⟩

/-! ### C15 -/

/-- A tokenizer whose dictionary has no unknown words. -/
def noUnk : Tokenizer := ⟨{ Sample.dictionary with unknownDictionary := ⟨[[]], []⟩ }, none, .normal⟩

/-- C15 fails: the sentence `z。` has no segmentation, is dropped, and the token `a` after it gets the byte range 0..1 although it is at 4..5. -/
theorem c15_offsets_after_dropped_fails : ∃ (t : Tokenizer) (text : Str) (toks : List Token) (tok : Token), Consistent t ∧
    t.tokenize text = .ok toks ∧ tok ∈ toks ∧ sliceBytes text tok.byteStart tok.byteEnd ≠ some tok.text := by
  refine ⟨noUnk, ['z', '。', 'a'], [⟨['a'], 0, 1, 0, 1, ⟨0, true⟩, none⟩], ⟨['a'], 0, 1, 0, 1, ⟨0, true⟩, none⟩, ?_, by decide +kernel, by simp, by decide⟩
  refine ⟨1, 1, by omega, by omega, by omega, rfl, Nat.le_refl _, Sample.sysDictOk, by simp [noUnk], ?_⟩
  intro c
  refine ⟨[0], Sample.lookup c, ?_⟩
  simp only [List.mem_singleton, forall_eq]
  exact ⟨⟨_, rfl⟩, [], rfl, by simp⟩

/-- C15 (partial): byte ranges are right if every sentence has some segmentation, whether or not the dictionary is complete. Missing:
texts with a sentence that cannot be segmented (`c15_offsets_after_dropped_fails`). -/
theorem c15_offsets_partial {t : Tokenizer} {text : Str} {toks : List Token} (h : t.tokenize text = .ok toks)
    {ss : List Str} (hss : Sentences text ss) (hcov : ∀ s ∈ ss, ∃ vs, Segmentation t.env s vs) :
    ∀ tok ∈ toks, sliceBytes text tok.byteStart tok.byteEnd = some tok.text := by
  obtain ⟨segs, hf, rfl⟩ := tokenize_spec h
  have hsurf : surfaces segs.flatten = text := by
    rw [← splitInclusive_flatten isDelimiter text]
    rw [sentences_split hss] at hf ⊢
    clear h hss
    induction hf with
    | nil => rfl
    | @cons s ws ss segs hr _ ih =>
      have hs : surfaces ws = s := by
        rcases hr with ⟨hseg, _⟩ | ⟨hno, _⟩
        · exact (segmentation_iff.mp hseg).surfaces_eq
        · exact absurd (hcov s (by simp)) hno
      simp [hs, ih (fun x hx => hcov x (by simp [hx]))]
  intro tok htok
  obtain ⟨i, hi⟩ := List.getElem?_of_mem htok
  obtain ⟨a, w, c, hws, _, h1, h2, h3, _⟩ := tokensFor_get hi
  rw [h1, h2, h3, ← hsurf, hws]
  have e : surfaces (a ++ w :: c) = surfaces a ++ w.surface ++ surfaces c := by simp
  rw [e, Nat.zero_add]
  exact sliceBytes_append _ _ _

/-- The hypothesis holds for the incomplete tokenizer `noUnk` on the text `ab`. -/
example : ∃ vs, Segmentation noUnk.env ['a', 'b'] vs := by
  refine ⟨[⟨['a', 'b'], ⟨⟨1, true⟩, 10, 0, 0⟩⟩], ⟨['a', 'b'], _, _, rfl, .start, .inl ⟨by simp, List.prefix_rfl, .inr ⟨[⟨⟨1, true⟩, 10, 0, 0⟩], ?_, ?_⟩⟩⟩, rfl⟩
  · decide +kernel
  · simp

end Verif.Props
