import Verif.Proofs.Shift
import Verif.Props.Sample
/-! Properties C01–C15: tokenization. -/
namespace Verif.Props
open Verif.Model Verif.Spec

/-! ### Helper facts about the tokens of a list of words -/

theorem tokensFor_texts (b p : Nat) (ws : List Word) : ((tokensFor b p ws).map (·.text)).flatten = surfaces ws := by
  induction ws generalizing b p with
  | nil => rfl
  | cons w ws ih => simp [tokensFor, ih]

theorem tokensFor_get {ws : List Word} {b p i : Nat} {tok : Token} (h : (tokensFor b p ws)[i]? = some tok) :
    ∃ a w c, ws = a ++ w :: c ∧ a.length = i ∧ tok.text = w.surface ∧ tok.byteStart = b + blen (surfaces a) ∧
      tok.byteEnd = b + blen (surfaces a) + blen w.surface ∧ tok.position = p + i ∧ tok.positionLength = 1 ∧
      tok.wordId = w.entry.wordId := by
  induction ws generalizing b p i with
  | nil => simp [tokensFor] at h
  | cons w ws ih =>
    cases i with
    | zero =>
      simp only [tokensFor, List.getElem?_cons_zero, Option.some.injEq] at h
      subst h
      exact ⟨[], w, ws, rfl, rfl, rfl, by simp, by simp, rfl, rfl, rfl⟩
    | succ i =>
      simp only [tokensFor, List.getElem?_cons_succ] at h
      obtain ⟨a, v, c, rfl, rfl, h1, h2, h3, h4, h5, h6⟩ := ih h
      exact ⟨w :: a, v, c, rfl, rfl, h1, by rw [h2]; simp; omega, by rw [h3]; simp; omega, by omega, h5, h6⟩

theorem tokensFor_length (b p : Nat) (ws : List Word) : (tokensFor b p ws).length = ws.length := by
  induction ws generalizing b p with
  | nil => rfl
  | cons w ws ih => simp [tokensFor, ih]

theorem surfaces_flatten (segs : List (List Word)) : surfaces segs.flatten = (segs.map surfaces).flatten := by
  induction segs with
  | nil => rfl
  | cons s segs ih => simp [ih]

theorem segs_surfaces {env : LatticeEnv} {m : ConnMatrix} {ss : List Str} {segs : List (List Word)}
    (h : List.Forall₂ (SegResult env m) ss segs) :
    surfaces segs.flatten = ss.flatten ∧ ∀ w ∈ segs.flatten, w.surface ≠ [] := by
  induction h with
  | nil => simp
  | @cons s ws ss segs hs _ ih =>
    have h1 := (segmentation_iff.mp hs.1).surfaces_eq
    have h2 := (segmentation_iff.mp hs.1).words_ne
    refine ⟨by simp [h1, ih.1], ?_⟩
    intro w hw
    rw [List.flatten_cons, List.mem_append] at hw
    rcases hw with hw | hw
    · exact h2 w hw
    · exact ih.2 w hw

/-! ### C01 -/

/-- C01: the texts of the tokens, concatenated, are the input. -/
theorem c01_lossless {t : Tokenizer} (hc : Complete t) {text : Str} {toks : List Token}
    (h : t.tokenize text = .ok toks) : (toks.map (·.text)).flatten = text := by
  obtain ⟨segs, hf, rfl⟩ := tokenize_complete hc h
  rw [tokensFor_texts, (segs_surfaces hf).1, splitInclusive_flatten]

/-- C01 with C10: on a consistent and complete dictionary, `tokenize` returns tokens and loses nothing. -/
theorem c01_total_lossless {t : Tokenizer} (hc : Complete t) (hk : Consistent t) (text : Str) :
    ∃ toks, t.tokenize text = .ok toks ∧ (toks.map (·.text)).flatten = text := by
  obtain ⟨toks, h⟩ := tokenize_total hk text
  exact ⟨toks, h, c01_lossless hc h⟩

example : (Sample.toks.map (·.text)).flatten = Sample.text := c01_lossless (Sample.complete _) Sample.tokenized
example (text : Str) : ∃ toks, Sample.tokD.tokenize text = .ok toks ∧ (toks.map (·.text)).flatten = text :=
  c01_total_lossless (Sample.complete _) (Sample.consistent _) text

/-! ### C02 -/

/-- C02: byte ranges start at 0, are non-empty, contiguous, end at the text's length, and slicing the
input with them (which would panic off a character boundary) gives the token's text. -/
theorem c02_spans_tile {t : Tokenizer} (hc : Complete t) {text : Str} {toks : List Token}
    (h : t.tokenize text = .ok toks) :
    (∀ tok ∈ toks, tok.byteStart < tok.byteEnd ∧ sliceBytes text tok.byteStart tok.byteEnd = some tok.text) ∧
    (∀ tok, toks.head? = some tok → tok.byteStart = 0) ∧
    (∀ i a b, toks[i]? = some a → toks[i + 1]? = some b → a.byteEnd = b.byteStart) ∧
    (∀ tok, toks.getLast? = some tok → tok.byteEnd = blen text) ∧
    (text ≠ [] → toks ≠ []) := by
  have hlossless := c01_lossless hc h
  obtain ⟨segs, hf, rfl⟩ := tokenize_complete hc h
  obtain ⟨hs, hne⟩ := segs_surfaces hf
  rw [splitInclusive_flatten] at hs
  generalize segs.flatten = ws at *
  refine ⟨?_, ?_, ?_, ?_, ?_⟩
  · intro tok htok
    obtain ⟨i, hi⟩ := List.getElem?_of_mem htok
    obtain ⟨a, w, c, rfl, _, h1, h2, h3, _⟩ := tokensFor_get hi
    have hw := blen_pos (hne w (by simp))
    refine ⟨by omega, ?_⟩
    rw [h1, h2, h3, ← hs]
    have e : surfaces (a ++ w :: c) = surfaces a ++ w.surface ++ surfaces c := by simp
    rw [e, Nat.zero_add]
    exact sliceBytes_append _ _ _
  · intro tok htok
    rw [List.head?_eq_getElem?] at htok
    obtain ⟨a, w, c, rfl, ha, h1, h2, _⟩ := tokensFor_get htok
    have : a = [] := List.length_eq_zero_iff.mp ha
    subst this
    simpa using h2
  · intro i x y hx hy
    obtain ⟨a, w, c, hws, ha, _, h2, h3, _⟩ := tokensFor_get hx
    obtain ⟨a', w', c', hws', ha', _, h2', _⟩ := tokensFor_get hy
    have : a' = a ++ [w] := by
      have e1 : ws.take (i + 1) = a ++ [w] := by
        rw [hws, ← ha, List.take_append, List.take_of_length_le (by omega)]; simp
      have e2 : ws.take (i + 1) = a' := by rw [hws', ← ha']; simp
      rw [← e1, e2]
    rw [h3, h2', this]
    simp
  · intro tok htok
    rw [List.getLast?_eq_getElem?, tokensFor_length] at htok
    obtain ⟨a, w, c, hws, ha, _, _, h3, _⟩ := tokensFor_get htok
    have hc' : c = [] := by
      have := congrArg List.length hws
      simp at this
      exact List.length_eq_zero_iff.mp (by omega)
    subst hc'
    rw [h3, ← hs, hws]
    simp
  · intro ht hnil
    rw [hnil] at hlossless
    exact ht hlossless.symm

example : ∀ tok ∈ Sample.toks, tok.byteStart < tok.byteEnd ∧
    sliceBytes Sample.text tok.byteStart tok.byteEnd = some tok.text :=
  (c02_spans_tile (Sample.complete _) Sample.tokenized).1

/-! ### C03 -/

/-- C03: the `i`-th token has position `i` and position length 1 (for any dictionary). -/
theorem c03_positions {t : Tokenizer} {text : Str} {toks : List Token} (h : t.tokenize text = .ok toks)
    {i : Nat} {tok : Token} (hi : toks[i]? = some tok) : tok.position = i ∧ tok.positionLength = 1 := by
  obtain ⟨segs, _, rfl⟩ := tokenize_spec h
  obtain ⟨_, _, _, _, _, _, _, _, h4, h5, _⟩ := tokensFor_get hi
  exact ⟨by omega, h5⟩

example : ∃ tok, Sample.toks[3]? = some tok ∧ tok.position = 3 :=
  ⟨_, rfl, (c03_positions Sample.tokenized (i := 3) rfl).1⟩

/-! ### C04 -/

/-- C04: a delimiter occurs in a token's text only as its last character (for any dictionary). -/
theorem c04_no_straddle {t : Tokenizer} {text : Str} {toks : List Token} (h : t.tokenize text = .ok toks)
    {tok : Token} (ht : tok ∈ toks) {a b : Str} {d : Char} (hd : tok.text = a ++ d :: b)
    (hdel : d ∈ delimiters) : b = [] := by
  obtain ⟨segs, hf, rfl⟩ := tokenize_spec h
  obtain ⟨i, hi⟩ := List.getElem?_of_mem ht
  obtain ⟨x, w, y, hws, _, h1, _⟩ := tokensFor_get hi
  obtain ⟨ws, hws', hw⟩ := List.mem_flatten.mp (show w ∈ segs.flatten by rw [hws]; simp)
  have hsent : ∃ s, s ∈ splitInclusive isDelimiter text ∧ SentenceResult t.env t.dictionary.costMatrix s ws := by
    clear hws h hi ht
    generalize splitInclusive isDelimiter text = ss at hf
    induction hf with
    | nil => simp at hws'
    | @cons s ws' ss segs hr _ ih =>
      rcases List.mem_cons.mp hws' with rfl | hin
      · exact ⟨s, by simp, hr⟩
      · obtain ⟨s', hs', hr'⟩ := ih hin
        exact ⟨s', by simp [hs'], hr'⟩
  obtain ⟨s, hs, hr⟩ := hsent
  rcases hr.surfaces with ⟨hsurf, _⟩ | rfl
  · obtain ⟨u, v, huv⟩ := List.append_of_mem hw
    have hs' : s = surfaces u ++ (a ++ d :: b) ++ surfaces v := by
      rw [← hsurf, huv, ← hd, h1]; simp
    -- a sentence has a delimiter only at its end
    have hend : ∀ p q : Str, s = p ++ d :: q → q = [] := by
      have hss := sentences_exist text
      generalize splitInclusive isDelimiter text = ss at hss hs
      clear hr hsurf huv hw hws' hs' hf h hi ht hws
      induction hss with
      | nil => simp at hs
      | last _ hno =>
        simp at hs
        subst hs
        intro p q hpq
        exact absurd hdel (hno d (by rw [hpq]; simp))
      | @cons s0 d0 rest ss hno _ _ ih =>
        rcases List.mem_cons.mp hs with rfl | hin
        · intro p q hpq
          rcases List.eq_nil_or_concat q with rfl | ⟨q', x, rfl⟩
          · rfl
          · exfalso
            have e : s0 ++ [d0] = (p ++ d :: q') ++ [x] := by rw [hpq]; simp
            obtain ⟨e1, _⟩ := List.append_inj' e rfl
            exact absurd hdel (hno d (by rw [e1]; simp))
        · exact ih hin
    have := hend (surfaces u ++ a) (b ++ surfaces v) (by rw [hs']; simp)
    simp at this
    exact this.1
  · simp at hw

example : ∃ tok ∈ Sample.toks, ∃ a, tok.text = a ++ '。' :: [] := ⟨_, by simp [Sample.toks]; right; left; rfl, [], rfl⟩

/-! ### C05 -/

/-- C05: after a delimiter, tokenization starts afresh: the tokens of `a ++ b` are those of `a` followed by those of `b`, shifted. -/
theorem c05_compositional {t : Tokenizer} (hc : Complete t) (a b : Str) {d : Char} (hd : d ∈ delimiters) :
    t.tokenize (a ++ [d] ++ b) = (do
      let ta ← t.tokenize (a ++ [d])
      let tb ← t.tokenize b
      return ta ++ tb.map fun tok =>
        { tok with
          byteStart := blen (a ++ [d]) + tok.byteStart
          byteEnd := blen (a ++ [d]) + tok.byteEnd
          position := ta.length + tok.position }) := by
  unfold Tokenizer.tokenize
  rw [splitInclusive_append b (isDelimiter_iff.mpr hd), foldlM_append_R]
  have hne1 := splitInclusive_ne isDelimiter (a ++ [d])
  have hne2 := splitInclusive_ne isDelimiter b
  cases h1 : (splitInclusive isDelimiter (a ++ [d])).foldlM t.sentenceStep ⟨[], Lattice.default, 0, 0⟩ with
  | error e => simp
  | ok st =>
    simp only [bind_ok, pure_eq_ok]
    obtain ⟨hl, hp, _, segs, hres, hb⟩ := fold_state hne1 latInv_default h1
    -- byte position after the first part
    have hta : t.tokenize (a ++ [d]) = .ok st.tokens := by
      unfold Tokenizer.tokenize; rw [h1]; rfl
    have hbyte : st.bytePosition = blen (a ++ [d]) := by
      have hcov : ∀ {ss : List Str} {segs : List (List Word)},
          List.Forall₂ (SentenceResult t.env t.dictionary.costMatrix) ss segs →
          surfaces segs.flatten = ss.flatten := by
        intro ss segs hf
        induction hf with
        | nil => rfl
        | @cons s ws ss segs hr _ ih =>
          obtain ⟨reach, latest, hsc⟩ := hr.scanned
          have hs : surfaces ws = s := by
            rcases hr with ⟨hseg, _⟩ | ⟨hno, _⟩
            · exact (segmentation_iff.mp hseg).surfaces_eq
            · exact absurd (segmentation_exists hc hsc) hno
          simp [hs, ih]
      rw [hb, hcov hres, splitInclusive_flatten]
      simp
    have hshift := fold_shift (t := t) hne2 st ⟨[], Lattice.default, 0, 0⟩ st (by simp [TokState.out, shiftOut])
      latInv_default hl
    have hpos : st.position = st.tokens.length := by simpa using hp
    cases h2 : (splitInclusive isDelimiter b).foldlM t.sentenceStep ⟨[], Lattice.default, 0, 0⟩ with
    | error e =>
      rw [h2] at hshift
      cases h3 : (splitInclusive isDelimiter b).foldlM t.sentenceStep st with
      | error e' => rw [h3] at hshift; simp [Except.map] at hshift; simp [hshift]
      | ok st3 => rw [h3] at hshift; simp [Except.map] at hshift
    | ok st2 =>
      rw [h2] at hshift
      cases h3 : (splitInclusive isDelimiter b).foldlM t.sentenceStep st with
      | error e' => rw [h3] at hshift; simp [Except.map] at hshift
      | ok st3 =>
        rw [h3] at hshift
        simp only [Except.map, Except.ok.injEq, TokState.out, shiftOut, Prod.mk.injEq] at hshift
        simp only [bind_ok, Except.ok.injEq]
        rw [hshift.1, hbyte, hpos]
        rfl

example : Sample.text = ['a', 'b'] ++ ['。'] ++ ['a', 'b', 'c', '猫'] ∧ Complete Sample.tok ∧ '。' ∈ delimiters :=
  ⟨rfl, Sample.complete _, by decide⟩

/-! ### C06 -/

/-- C06 (partial: non-empty texts): a lattice with any history gives the same offsets as a fresh one. -/
theorem c06_reuse_partial {l : Lattice} (h : History l) (env : LatticeEnv) (m : ConnMatrix) {text : Str} (ht : text ≠ []) :
    (do let l1 ← l.setText env text
        let l2 ← l1.calculatePathCosts m env.mode
        l2.tokensOffset) =
    (do let l1 ← Lattice.default.setText env text
        let l2 ← l1.calculatePathCosts m env.mode
        l2.tokensOffset) := by
  have key : ∀ l : Lattice, LatInv l → (do
      let l1 ← l.setText env text
      let l2 ← l1.calculatePathCosts m env.mode
      l2.tokensOffset) = (do let r ← sentenceOffsets env m text; return r.2.2) := by
    intro l hl
    have h1 : (do
      let l1 ← l.setText env text
      let l2 ← l1.calculatePathCosts m env.mode
      l2.tokensOffset) = (do let r ← runLattice env m l text; return r.2) := by
      unfold runLattice
      simp only [bind_assoc]
      congr 1; funext l1; congr 1; funext l2
      cases l2.tokensOffset <;> simp
    rw [h1, runLattice_eq hl env m ht]
    cases sentenceOffsets env m text <;> simp
  rw [key l h.latInv, key Lattice.default latInv_default]

/-- What is missing in C06: on the empty text a fresh lattice panics, a used one does not. -/
theorem c06_empty_text_fails : ∃ (l : Lattice) (env : LatticeEnv), History l ∧
    (∃ l', l.setText env [] = .ok l') ∧ Lattice.default.setText env [] = .error .panic := by
  have h : ∃ l, Lattice.default.setText Sample.tok.env ['a'] = .ok l :=
    ⟨lat 1 1 [wordEdge .known ⟨⟨0, true⟩, 3, 0, 0⟩ 0 ['a']], by decide +kernel⟩
  obtain ⟨l, hl⟩ := h
  have hl' : l = lat 1 1 [wordEdge .known ⟨⟨0, true⟩, 3, 0, 0⟩ 0 ['a']] := by
    have h2 : Lattice.default.setText Sample.tok.env ['a'] = .ok (lat 1 1 [wordEdge .known ⟨⟨0, true⟩, 3, 0, 0⟩ 0 ['a']]) := by
      decide +kernel
    rw [h2] at hl; cases hl; rfl
  refine ⟨l, Sample.tok.env, .setText _ _ .fresh hl, ⟨⟨1, [Edge.default, Edge.default], [[1], []], [[0], []]⟩, ?_⟩, ?_⟩
  · rw [hl']; decide +kernel
  · decide +kernel

private theorem unused_nil {l : Lattice} (h : Unused l) : l.startsAt.length = 0 ∧ l.endsAt.length = 0 ∧ l.capacity = 0 := by
  induction h with
  | fresh => exact ⟨rfl, rfl, rfl⟩
  | clear _ ih => simpa [Lattice.clear] using ih
  | costs m mode _ hc ih =>
    obtain ⟨h1, h2, h3⟩ := calculatePathCosts_shape hc
    omega

private theorem setText_used {l l' : Lattice} {env : LatticeEnv} {text : Str} (hl : LatInv l) (h : l.setText env text = .ok l') :
    l'.startsAt.length ≠ 0 := by
  by_cases ht : text = []
  · subst ht
    unfold Lattice.setText at h
    simp only at h
    split at h
    · cases h
    · simp only [bind_eq_ok] at h
      obtain ⟨en, hen, st, hst, r, hr, h⟩ := h
      simp [blen] at hr h
      subst h
      subst hr
      rw [pushAt] at hst
      split at hst
      · rename_i hlt
        cases hst
        simp only [List.length_modify]
        omega
      · cases hst
  · rw [setText_eq hl env ht] at h
    cases hg : gen env text with
    | error e => simp [hg] at h
    | ok es =>
      simp only [hg, bind_ok, pure_eq_ok, Except.ok.injEq] at h
      subst h
      simp [lat, latOf]

private theorem unused_or {l : Lattice} (h : History l) : Unused l ∨ l.startsAt.length ≠ 0 := by
  induction h with
  | fresh => exact .inl .fresh
  | clear _ ih =>
    rcases ih with ih | ih
    · exact .inl ih.clear
    · exact .inr (by simpa [Lattice.clear] using ih)
  | setText _ _ hh hs ih => exact .inr (setText_used hh.latInv hs)
  | costs m mode _ hc ih =>
    rcases ih with ih | ih
    · exact .inl (ih.costs m mode hc)
    · obtain ⟨h1, h2, h3⟩ := calculatePathCosts_shape hc
      exact .inr (by omega)

private theorem setText_nil_used {l : Lattice} (hl : LatInv l) (hu : l.startsAt.length ≠ 0) (env : LatticeEnv) :
    l.setText env [] = .ok (lat l.capacity 0 []) := by
  have h1 := hl.same
  have h2 : l.startsAt.length = l.capacity + 1 := by rcases hl.size with h | h <;> omega
  have hs : (l.startsAt.map fun _ => ([] : List Nat)) = List.replicate (l.capacity + 1) [] := by
    rw [← h2]; exact List.map_const' ..
  have he : (l.endsAt.map fun _ => ([] : List Nat)) = List.replicate (l.capacity + 1) [] := by
    rw [← h2, h1]; exact List.map_const' ..
  unfold Lattice.setText Lattice.setCapacity Lattice.clear
  simp only [hs, he, blen, Nat.not_lt_zero, if_false, Lattice.addEdge, List.nil_append, List.length_nil,
    List.length_singleton, List.cons_append, eosNode, ne_eq, not_true_eq_false, pushAt, List.length_replicate]
  rw [if_pos (by omega)]
  have hinit : (⟨l.capacity, [Edge.default, Edge.default],
      (List.replicate (l.capacity + 1) ([] : List Nat)).modify 0 (· ++ [1]),
      (List.replicate (l.capacity + 1) ([] : List Nat)).modify 0 (· ++ [0])⟩ : Lattice) = lat l.capacity 0 [] := by
    have hrep : List.replicate (l.capacity + 1) ([] : List Nat) = (List.range (l.capacity + 1)).map (fun _ => []) := by
      simp
    rw [hrep, modify_map_range, modify_map_range]
    simp [lat, latOf, startIds, endIds, idsWhere]
  simp [hinit]

/-- C06, exactly, for the empty text: if no text has been set so far it is a panic; otherwise, whatever has been processed before, it is accepted
and gives no token, provided the matrix has an entry for the pair of sentence boundaries. -/
theorem c06_empty_exact {l : Lattice} (h : History l) (env : LatticeEnv) :
    (Unused l ∧ l.setText env [] = .error .panic) ∨
    (¬ Unused l ∧ ∃ l1, l.setText env [] = .ok l1 ∧ ∀ (m : ConnMatrix) (c : Int32), m.cost 0 0 = .ok c →
      ∃ l2, l1.calculatePathCosts m env.mode = .ok l2 ∧ l2.tokensOffset = .ok []) := by
  by_cases hu : l.startsAt.length = 0
  · left
    have hun : Unused l := by
      rcases unused_or h with h | h
      · exact h
      · exact absurd hu h
    refine ⟨hun, ?_⟩
    obtain ⟨h1, h2, h3⟩ := unused_nil hun
    have h1' := List.eq_nil_of_length_eq_zero h1
    have h2' := List.eq_nil_of_length_eq_zero h2
    unfold Lattice.setText Lattice.setCapacity Lattice.clear
    simp [h1', h2', h3, blen, Lattice.addEdge, eosNode, pushAt]
  · right
    refine ⟨fun hun => hu (unused_nil hun).1, _, setText_nil_used h.latInv hu env, ?_⟩
    intro m c hm
    refine ⟨latOf l.capacity 0 [] [Edge.default, { Edge.default with leftEdge := some 0, pathCost := Edge.default.wordEntry.wordCost.toInt32 + (Edge.default.pathCost + c + env.mode.penaltyCost Edge.default) }], ?_, ?_⟩
    · rw [lat, calculatePathCosts_latOf m env.mode (by omega) (by simp)]
      have hm' : m.cost Edge.default.wordEntry.rightId.toUInt32 Edge.default.wordEntry.leftId.toUInt32 = .ok c := hm
      simp [calcE, startIds, endIds, idsWhere, relaxE, leftCostE, hm', minByCost, List.range_succ]
    · rfl

/-- Both alternatives happen. -/
example : (Unused Lattice.default.clear ∧ Lattice.default.clear.setText Sample.tok.env [] = .error .panic) ∧
    ∃ l, History l ∧ ¬ Unused l ∧ Sample.tok.dictionary.costMatrix.cost 0 0 = .ok 0 := by
  refine ⟨⟨.clear .fresh, by decide +kernel⟩, ?_⟩
  obtain ⟨l, env, h, ⟨l', hl'⟩, hd⟩ := c06_empty_text_fails
  refine ⟨l, h, ?_, by decide +kernel⟩
  rcases c06_empty_exact h env with ⟨-, hp⟩ | ⟨hn, -⟩
  · rw [hl'] at hp; cases hp
  · exact hn

/-- A history that is not trivial: two texts and their costs have been processed before. -/
example : ∃ l l1 l2, History l2 ∧ Lattice.default.setText Sample.tok.env ['a', 'b', 'c'] = .ok l ∧
    l.calculatePathCosts Sample.dictionary.costMatrix .normal = .ok l1 ∧ l1.setText Sample.tokD.env ['猫'] = .ok l2 := by
  obtain ⟨l, hl⟩ : ∃ l, Lattice.default.setText Sample.tok.env ['a', 'b', 'c'] = .ok l := by
    rw [setText_eq latInv_default _ (by simp)]
    exact ⟨_, rfl⟩
  obtain ⟨l1, hl1⟩ : ∃ l1, l.calculatePathCosts Sample.dictionary.costMatrix .normal = .ok l1 := by
    rw [setText_eq latInv_default _ (by simp)] at hl
    cases hl
    exact ⟨_, rfl⟩
  have h1 : History l1 := .costs _ _ (.setText _ _ .fresh hl) hl1
  obtain ⟨l2, hl2⟩ : ∃ l2, l1.setText Sample.tokD.env ['猫'] = .ok l2 := by
    rw [setText_eq h1.latInv _ (by simp)]
    exact ⟨_, rfl⟩
  exact ⟨l, l1, l2, .setText _ _ h1 hl2, hl, hl1, hl2⟩

/-! ### C07, C09, C14 -/

/-- C07: sentence by sentence, the tokens are those of a segmentation of the least cost. -/
theorem c07_optimal {t : Tokenizer} (hc : Complete t) {text : Str} {toks : List Token} (h : t.tokenize text = .ok toks)
    {ss : List Str} (hss : Sentences text ss) :
    ∃ segs : List (List Word), toks = tokensFor 0 0 segs.flatten ∧
      List.Forall₂ (fun s ws => Segmentation t.env s ws ∧
        (CostsFit t.env t.dictionary.costMatrix s → ∀ vs, Segmentation t.env s vs →
          cost t.dictionary.costMatrix t.mode ws ≤ cost t.dictionary.costMatrix t.mode vs)) ss segs := by
  obtain ⟨segs, hf, ht⟩ := tokenize_complete hc h
  rw [sentences_split hss] at hf
  exact ⟨segs, ht, hf.imp fun _ _ hr => ⟨hr.1, fun hn => hr.2.1 hn.inRange⟩⟩

/-- C07 in numbers: the costs of a sentence fit if it is short enough for the largest possible costs. -/
theorem c07_short {t : Tokenizer} (hc : Complete t) {text : Str} {toks : List Token} (h : t.tokenize text = .ok toks) {ss : List Str} (hss : Sentences text ss)
    (hno : ∀ s ∈ ss, NoOverflow t.mode s) :
    ∃ segs : List (List Word), toks = tokensFor 0 0 segs.flatten ∧
      List.Forall₂ (fun s ws => Segmentation t.env s ws ∧ ∀ vs, Segmentation t.env s vs →
        cost t.dictionary.costMatrix t.mode ws ≤ cost t.dictionary.costMatrix t.mode vs) ss segs := by
  obtain ⟨segs, ht, hf⟩ := c07_optimal hc h hss
  refine ⟨segs, ht, ?_⟩
  clear ht h hss
  induction hf with
  | nil => exact .nil
  | cons h1 _ ih => exact .cons ⟨h1.1, h1.2 (fit_of_short (hno _ (by simp)))⟩ (ih fun s hs => hno s (by simp [hs]))

/-- C07 without completeness: a sentence that has no segmentation yields no tokens, all others a cheapest segmentation. -/
theorem c07_optimal_any {t : Tokenizer} {text : Str} {toks : List Token} (h : t.tokenize text = .ok toks)
    {ss : List Str} (hss : Sentences text ss) :
    ∃ segs : List (List Word), toks = tokensFor 0 0 segs.flatten ∧
      List.Forall₂ (fun s ws =>
        (Segmentation t.env s ws ∧ (CostsFit t.env t.dictionary.costMatrix s → ∀ vs, Segmentation t.env s vs →
          cost t.dictionary.costMatrix t.mode ws ≤ cost t.dictionary.costMatrix t.mode vs)) ∨
        ((¬ ∃ vs, Segmentation t.env s vs) ∧ ws = [])) ss segs := by
  obtain ⟨segs, hf, ht⟩ := tokenize_spec h
  rw [sentences_split hss] at hf
  refine ⟨segs, ht, hf.imp fun _ _ hr => ?_⟩
  rcases hr with hr | hr
  · exact .inl ⟨hr.1, fun hn => hr.2.1 hn.inRange⟩
  · exact .inr ⟨hr.1, hr.2.1⟩

/-- Any sentence of up to 30000 characters is short enough in normal mode. -/
theorem noOverflow_normal {s : Str} (h : s.length ≤ 30000) : NoOverflow .normal s := by
  simp only [NoOverflow, maxPenalty]
  omega

/-- Any sentence of up to 30000 characters is short enough with the default penalties. -/
theorem noOverflow_default {s : Str} (h : s.length ≤ 30000) : NoOverflow (.decompose Penalty.default) s := by
  simp only [NoOverflow, maxPenalty]
  have h1 : blen s ≤ 4 * s.length := by
    clear h
    induction s with
    | nil => simp [blen]
    | cons c s ih =>
      have := Char.utf8Size_le_four c
      simp only [blen, List.length_cons]
      omega
  have h2 : max (Penalty.default.kanjiPenalty.toInt.natAbs) (Penalty.default.otherPenalty.toInt.natAbs) = 3000 := by
    decide
  rw [h2]
  omega

example : Sentences Sample.text [['a', 'b', '。'], ['a', 'b', 'c', '猫']] ∧ CostsFit Sample.tok.env Sample.tok.dictionary.costMatrix ['a', 'b', 'c', '猫'] := by
  refine ⟨?_, fit_of_short (noOverflow_normal (by simp))⟩
  have := sentences_exist Sample.text
  rwa [show splitInclusive isDelimiter Sample.text = [['a', 'b', '。'], ['a', 'b', 'c', '猫']] by decide] at this

/-- C09: among segmentations of equal cost the returned one is fixed by the tie rule. -/
theorem c09_ties {t : Tokenizer} (hc : Complete t) {text : Str} {toks : List Token} (h : t.tokenize text = .ok toks)
    {ss : List Str} (hss : Sentences text ss) (hno : ∀ s ∈ ss, CostsFit t.env t.dictionary.costMatrix s) :
    ∃ segs : List (List Word), toks = tokensFor 0 0 segs.flatten ∧
      List.Forall₂ (fun s ws => Segmentation t.env s ws ∧ Cheapest t.env t.dictionary.costMatrix s ws ∧
        ∀ a v b a' v', ws = a ++ v :: b → Segmentation t.env s (a' ++ v' :: b) →
          cost t.dictionary.costMatrix t.mode (a' ++ v' :: b) = cost t.dictionary.costMatrix t.mode ws →
          ToKeep t.env s (a.map (·.surface)).flatten v v' ∧ Preferred t.env v v') ss segs := by
  obtain ⟨segs, hf, ht⟩ := tokenize_complete hc h
  rw [sentences_split hss] at hf
  refine ⟨segs, ht, ?_⟩
  clear ht h hss
  induction hf with
  | nil => exact .nil
  | @cons s ws ss segs hr _ ih =>
    have hn : InRange t.env t.dictionary.costMatrix s := (hno s (by simp)).inRange
    exact .cons ⟨hr.1, hr.2.1 hn, fun a v b a' v' h1 h2 h3 => ⟨(hr.2.2.1 hn).1 a v b a' v' h1 h2 h3, (hr.2.2.1 hn).2 a v b a' v' h1 h2 h3⟩⟩ (ih (fun x hx => hno x (by simp [hx])))

example : Complete Sample.tok ∧ CostsFit Sample.tok.env Sample.tok.dictionary.costMatrix Sample.text := ⟨Sample.complete _, fit_of_short (noOverflow_normal (by decide))⟩

/-- Every segmentation made of dictionary words only (user or system) is a segmentation in the sense of C07. -/
theorem dictWords_segFrom {env : LatticeEnv} {s : Str} {reach : Nat → Prop} {latest : Option Nat}
    (hscan : Scan env s (blen s) reach latest) : ∀ {vs : List Word} {pre : Str}, pre ++ surfaces vs = s →
    (∀ v ∈ vs, v.surface ≠ [] ∧ AnyDictWord env v) → SegFrom env s pre vs
  | [], pre, h, _ => by simpa [SegFrom] using h
  | v :: vs, pre, h, hv => by
    have hb : blen pre ≤ blen s := by rw [← h]; simp
    obtain ⟨R, l, hs⟩ := Scan.truncate hscan (blen pre) hb
    refine ⟨⟨surfaces (v :: vs), R, l, h.symm, hs, .inl ⟨(hv v (by simp)).1, ?_, (hv v (by simp)).2⟩⟩, ?_⟩
    · exact ⟨surfaces vs, by simp⟩
    · exact dictWords_segFrom hscan (by rw [← h]; simp) (fun x hx => hv x (by simp [hx]))

/-- C14: whatever segmentation of a sentence can be made of user and system dictionary words, the returned one costs no more. -/
theorem c14_user_words {t : Tokenizer} (hc : Complete t) {text : Str} {toks : List Token} (h : t.tokenize text = .ok toks)
    {ss : List Str} (hss : Sentences text ss) :
    ∃ segs : List (List Word), toks = tokensFor 0 0 segs.flatten ∧
      List.Forall₂ (fun s ws => surfaces ws = s ∧ (CostsFit t.env t.dictionary.costMatrix s → ∀ vs : List Word, (vs.map (·.surface)).flatten = s →
          (∀ v ∈ vs, v.surface ≠ [] ∧ ((∃ u, t.userDictionary = some u ∧ InDict u.dict v.surface v.entry) ∨
            InDict t.dictionary.dict v.surface v.entry)) →
          cost t.dictionary.costMatrix t.mode ws ≤ cost t.dictionary.costMatrix t.mode vs)) ss segs := by
  obtain ⟨segs, hf, ht⟩ := tokenize_complete hc h
  rw [sentences_split hss] at hf
  refine ⟨segs, ht, hf.imp fun s ws hr => ⟨(segmentation_iff.mp hr.1).surfaces_eq, fun hno vs hvs hd => ?_⟩⟩
  by_cases hnil : vs = []
  · subst hnil
    simp at hvs
    subst hvs
    have := (segmentation_iff.mp hr.1).surfaces_eq
    have hne := (segmentation_iff.mp hr.1).words_ne
    cases ws with
    | nil => exact Int.le_refl _
    | cons w ws =>
      exfalso
      simp at this
      exact hne w (by simp) this.1
  · refine hr.2.1 hno.inRange vs ?_
    obtain ⟨reach, latest, hscan⟩ := hr.2.2.2.2
    refine dictWords_segFrom hscan (by simpa [surfaces] using hvs) ?_
    intro v hv
    refine ⟨(hd v hv).1, ?_⟩
    rcases (hd v hv).2 with ⟨u, hu, hin⟩ | hin
    · exact .inl ⟨u.dict, by simp [Tokenizer.env, hu], hin⟩
    · exact .inr hin

end Verif.Props
