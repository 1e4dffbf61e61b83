import Verif.Proofs.Ties
import Verif.Spec.Tokens
/-! Sentences, tokens and the reuse of the lattice. -/
namespace Verif.Model
open Verif.Spec

/-! ### Sentences -/

theorem splitInclusive_flatten (p : Char → Bool) (s : Str) : (splitInclusive p s).flatten = s := by
  induction s with
  | nil => rfl
  | cons c cs ih =>
    unfold splitInclusive
    split
    · simp [ih]
    · split
      · rename_i h; rw [h] at ih; simp at ih; simp [← ih]
      · rename_i s ss h; rw [h] at ih; simp at ih; simp [← ih]

theorem splitInclusive_ne (p : Char → Bool) (s : Str) : ∀ x ∈ splitInclusive p s, x ≠ [] := by
  induction s with
  | nil => simp [splitInclusive]
  | cons c cs ih =>
    unfold splitInclusive
    split
    · intro x hx
      rcases List.mem_cons.mp hx with rfl | hx
      · simp
      · exact ih x hx
    · split
      · simp
      · rename_i s ss h
        rw [h] at ih
        intro x hx
        rcases List.mem_cons.mp hx with rfl | hx
        · simp
        · exact ih x (by simp [hx])

theorem splitInclusive_noDelim {p : Char → Bool} {s : Str} (hne : s ≠ []) (h : ∀ c ∈ s, p c = false) :
    splitInclusive p s = [s] := by
  induction s with
  | nil => exact absurd rfl hne
  | cons c cs ih =>
    unfold splitInclusive
    rw [h c (by simp)]
    simp only [Bool.false_eq_true, if_false]
    cases cs with
    | nil => simp [splitInclusive]
    | cons d ds => rw [ih (by simp) (fun x hx => h x (by simp [hx]))]

theorem splitInclusive_delim {p : Char → Bool} {s : Str} {d : Char} (rest : Str)
    (h : ∀ c ∈ s, p c = false) (hd : p d = true) :
    splitInclusive p (s ++ d :: rest) = (s ++ [d]) :: splitInclusive p rest := by
  induction s with
  | nil => simp [splitInclusive, hd]
  | cons c cs ih =>
    rw [List.cons_append, splitInclusive, h c (by simp)]
    simp only [Bool.false_eq_true, if_false]
    rw [ih (fun x hx => h x (by simp [hx]))]
    rfl

theorem isDelimiter_iff {c : Char} : isDelimiter c = true ↔ c ∈ delimiters := by
  simp [isDelimiter, delimiters, or_assoc]

theorem isDelimiter_false {c : Char} : isDelimiter c = false ↔ c ∉ delimiters := by
  rw [← isDelimiter_iff, Bool.not_eq_true]

/-- `splitInclusive` computes the sentences of the specification. -/
theorem sentences_split {text : Str} {ss : List Str} (h : Sentences text ss) :
    splitInclusive isDelimiter text = ss := by
  induction h with
  | nil => rfl
  | last hne h => exact splitInclusive_noDelim hne fun c hc => isDelimiter_false.mpr (h c hc)
  | cons h hd _ ih => rw [splitInclusive_delim _ (fun c hc => isDelimiter_false.mpr (h c hc)) (isDelimiter_iff.mpr hd), ih]

theorem exists_first {p : Char → Bool} (s : Str) :
    (∀ c ∈ s, p c = false) ∨ ∃ a d b, s = a ++ d :: b ∧ (∀ c ∈ a, p c = false) ∧ p d = true := by
  induction s with
  | nil => left; simp
  | cons c cs ih =>
    cases hc : p c with
    | true => exact .inr ⟨[], c, cs, rfl, by simp, hc⟩
    | false =>
      rcases ih with h | ⟨a, d, b, rfl, ha, hd⟩
      · left; intro x hx; rcases List.mem_cons.mp hx with rfl | hx
        · exact hc
        · exact h x hx
      · right
        refine ⟨c :: a, d, b, rfl, ?_, hd⟩
        intro x hx; rcases List.mem_cons.mp hx with rfl | hx
        · exact hc
        · exact ha x hx

theorem sentences_exist (text : Str) : Sentences text (splitInclusive isDelimiter text) := by
  induction hn : text.length using Nat.strongRecOn generalizing text with
  | ind n ih =>
    rcases exists_first (p := isDelimiter) text with h | ⟨a, d, b, rfl, ha, hd⟩
    · by_cases hne : text = []
      · subst hne; exact .nil
      · rw [splitInclusive_noDelim hne h]; exact .last hne fun c hc => isDelimiter_false.mp (h c hc)
    · rw [splitInclusive_delim _ ha hd]
      refine .cons (fun c hc => isDelimiter_false.mp (ha c hc)) (isDelimiter_iff.mp hd) (ih b.length ?_ b rfl)
      rw [← hn]; simp; omega

theorem splitInclusive_append {p : Char → Bool} {a : Str} {d : Char} (b : Str) (hd : p d = true) :
    splitInclusive p (a ++ [d] ++ b) = splitInclusive p (a ++ [d]) ++ splitInclusive p b := by
  induction hn : a.length using Nat.strongRecOn generalizing a with
  | ind n ih =>
    rcases exists_first (p := p) a with h | ⟨x, e, y, rfl, hx, he⟩
    · rw [List.append_assoc, List.singleton_append, splitInclusive_delim _ h hd, splitInclusive_delim _ h hd]
      rfl
    · have e1 : x ++ e :: y ++ [d] ++ b = x ++ e :: (y ++ [d] ++ b) := by simp
      have e2 : x ++ e :: y ++ [d] = x ++ e :: (y ++ [d]) := by simp
      rw [e1, e2, splitInclusive_delim _ hx he, splitInclusive_delim _ hx he,
        ih y.length (by rw [← hn]; simp; omega) rfl]
      rfl

/-! ### One sentence -/

/-- A run of the three public lattice functions, as `Tokenizer::tokenize` calls them. -/
def runLattice (env : LatticeEnv) (m : ConnMatrix) (l : Lattice) (text : Str) :
    R (Lattice × List (Nat × WordId)) := do
  let l ← l.setText env text
  let l ← l.calculatePathCosts m env.mode
  let offsets ← l.tokensOffset
  return (l, offsets)

/-- The pure computation behind `runLattice`. -/
def sentenceOffsets (env : LatticeEnv) (m : ConnMatrix) (text : Str) : R (List Edge × List Edge × List (Nat × WordId)) := do
  let es ← gen env text
  let edges ← calcE m env.mode (blen text) es (Edge.default :: Edge.default :: es)
  let offsets ← Lattice.tokensOffset ⟨0, edges, [], []⟩
  return (es, edges, offsets)

theorem followLeft_congr {l l' : Lattice} (h : l.edges = l'.edges) :
    ∀ fuel id, l.followLeft fuel id = l'.followLeft fuel id := by
  intro fuel
  induction fuel with
  | zero => intro id; rfl
  | succ fuel ih =>
    intro id
    simp only [Lattice.followLeft, h, ih]

theorem tokensOffset_congr {l l' : Lattice} (h : l.edges = l'.edges) : l.tokensOffset = l'.tokensOffset := by
  unfold Lattice.tokensOffset
  rw [h, followLeft_congr h]

theorem gen_bounds {env : LatticeEnv} {text : Str} {es : List Edge} (h : gen env text = .ok es) :
    ∀ e ∈ es, e.startIndex < e.stopIndex ∧ e.startIndex < blen text ∧ e.leftEdge = none := by
  intro e he
  obtain ⟨ue, hI⟩ := gen_inv h
  obtain ⟨_, _, _, _, _, ho⟩ := hI.sound e he
  have := ho.bounds
  exact ⟨this.2.1, by omega, this.2.2.2⟩

theorem runLattice_eq {l : Lattice} (hl : LatInv l) (env : LatticeEnv) (m : ConnMatrix) {text : Str}
    (ht : text ≠ []) :
    runLattice env m l text = (do
      let r ← sentenceOffsets env m text
      return (latOf (max l.capacity (blen text)) (blen text) r.1 r.2.1, r.2.2)) := by
  unfold runLattice sentenceOffsets
  rw [setText_eq hl env ht]
  cases hg : gen env text with
  | error e => simp
  | ok es =>
    have hb := gen_bounds hg
    simp only [bind_ok, pure_eq_ok, lat]
    rw [calculatePathCosts_latOf m env.mode (by omega) (fun e he => (hb e he).2.1)]
    cases calcE m env.mode (blen text) es (Edge.default :: Edge.default :: es) with
    | error e => simp
    | ok edges =>
      simp only [bind_ok, pure_eq_ok]
      rw [tokensOffset_congr (l := latOf (max l.capacity (blen text)) (blen text) es edges)
        (l' := ⟨0, edges, [], []⟩) rfl]
      cases Lattice.tokensOffset ⟨0, edges, [], []⟩ <;> simp

/-- What a sentence that can be segmented yields. -/
def SegResult (env : LatticeEnv) (m : ConnMatrix) (text : Str) (ws : List Word) : Prop :=
  Segmentation env text ws ∧ (InRange env m text → Cheapest env m text ws) ∧
    (InRange env m text → KeepRule env m text ws ∧ TieRule env m text ws) ∧ LastRule env m text ws ∧
    ∃ reach latest, Scan env text (blen text) reach latest

/-- What one sentence yields: an optimal segmentation, or nothing if there is none. -/
def SentenceResult (env : LatticeEnv) (m : ConnMatrix) (text : Str) (ws : List Word) : Prop :=
  SegResult env m text ws ∨
  ((¬ ∃ vs, Segmentation env text vs) ∧ ws = [] ∧ ∃ reach latest, Scan env text (blen text) reach latest)

theorem SentenceResult.scanned {env : LatticeEnv} {m : ConnMatrix} {text : Str} {ws : List Word}
    (h : SentenceResult env m text ws) : ∃ reach latest, Scan env text (blen text) reach latest := by
  rcases h with h | h
  · exact h.2.2.2.2
  · exact h.2.2

theorem sentenceOffsets_spec {env : LatticeEnv} {m : ConnMatrix} {text : Str}
    {r : List Edge × List Edge × List (Nat × WordId)} (h : sentenceOffsets env m text = .ok r) :
    ∃ ws, SentenceResult env m text ws ∧ r.2.2 = offsetsFrom 0 ws := by
  unfold sentenceOffsets at h
  simp only [bind_eq_ok] at h
  obtain ⟨es, hg, edges, hc, offs, ho, h⟩ := h
  simp at h
  subst h
  obtain ⟨ue, hI⟩ := gen_inv hg
  have hscan : ∃ reach latest, Scan env text (blen text) reach latest := by
    obtain ⟨reach, hs, _⟩ := hI.scan
    exact ⟨reach, ue, hs⟩
  have hb := gen_bounds hg
  have hB := calcE_settled (fun e he => (hb e he).1) (fun e he => (hb e he).2.1) (fun e he => (hb e he).2.2) hc
  rcases tokensOffset_spec hI hB ⟨0, edges, [], []⟩ rfl with
    ⟨ws, hs, hw, hopt, hlast, eos, lf, heos, hlf, hle, hch⟩ | ⟨hno, hw⟩
  · rw [hw] at ho
    cases ho
    refine ⟨ws, .inl ⟨hs, hopt, fun hno => ?_, hlast, hscan⟩, rfl⟩
    exact tieRules hI hg hB hno heos hlf hle hch
  · rw [hw] at ho
    cases ho
    exact ⟨[], .inr ⟨hno, rfl, hscan⟩, rfl⟩

/-! ### Emitting tokens -/

theorem emitTokens_spec {sentence pre : Str} {ws : List Word} (h : sentence = pre ++ surfaces ws)
    (hne : ∀ w ∈ ws, w.surface ≠ []) (st : TokState) :
    emitTokens sentence st (offsetsFrom (blen pre) ws) = .ok
      { st with
        tokens := st.tokens ++ tokensFor st.bytePosition st.position ws
        position := st.position + ws.length
        bytePosition := st.bytePosition + blen (surfaces ws) } := by
  induction ws generalizing pre st with
  | nil => simp [offsetsFrom, emitTokens, tokensFor]
  | cons w ws ih =>
    rw [offsetsFrom]
    have hend : tokenStop sentence (offsetsFrom (blen pre + blen w.surface) ws) = blen pre + blen w.surface := by
      cases ws with
      | nil => simp [offsetsFrom, tokenStop, h]
      | cons v vs => simp [offsetsFrom, tokenStop]
    have hslice : sliceBytes sentence (blen pre) (blen pre + blen w.surface) = some w.surface := by
      rw [h, surfaces_cons, ← List.append_assoc]
      exact sliceBytes_append pre w.surface (surfaces ws)
    have ih' := ih (pre := pre ++ w.surface) (by rw [h]; simp) (fun v hv => hne v (by simp [hv]))
    rw [blen_append] at ih'
    unfold emitTokens
    simp only [hend, hslice, orPanic_some, bind_ok]
    rw [ih']
    simp only [Except.ok.injEq, TokState.mk.injEq, true_and]
    refine ⟨?_, ?_, ?_⟩
    · simp [tokensFor, Token.new]
    · simp; omega
    · simp; omega

theorem SentenceResult.surfaces {env : LatticeEnv} {m : ConnMatrix} {text : Str} {ws : List Word}
    (h : SentenceResult env m text ws) :
    (surfaces ws = text ∧ ∀ w ∈ ws, w.surface ≠ []) ∨ ws = [] := by
  rcases h with ⟨hs, _⟩ | ⟨_, rfl, _⟩
  · rw [segmentation_iff] at hs
    exact .inl ⟨hs.surfaces_eq, hs.words_ne⟩
  · exact .inr rfl

/-- One sentence of `tokenize`, as a function of the offsets only. -/
theorem sentenceStep_eq (t : Tokenizer) {st : TokState} (hl : LatInv st.lattice) {s : Str} (hs : s ≠ []) :
    t.sentenceStep st s = (do
      let r ← sentenceOffsets t.env t.dictionary.costMatrix s
      emitTokens s { st with lattice := latOf (max st.lattice.capacity (blen s)) (blen s) r.1 r.2.1 } r.2.2) := by
  have h := runLattice_eq hl t.env t.dictionary.costMatrix hs
  have h' : t.sentenceStep st s = (do
      let r ← runLattice t.env t.dictionary.costMatrix st.lattice s
      emitTokens s { st with lattice := r.1 } r.2) := by
    unfold Tokenizer.sentenceStep runLattice
    simp only [bind_assoc]
    rfl
  rw [h', h]
  simp only [bind_assoc]
  rfl

theorem sentenceStep_spec {t : Tokenizer} {st st' : TokState} (hl : LatInv st.lattice) {s : Str} (hs : s ≠ [])
    (h : t.sentenceStep st s = .ok st') :
    LatInv st'.lattice ∧ ∃ ws, SentenceResult t.env t.dictionary.costMatrix s ws ∧
      st'.tokens = st.tokens ++ tokensFor st.bytePosition st.position ws ∧
      st'.position = st.position + ws.length ∧
      st'.bytePosition = st.bytePosition + blen (surfaces ws) := by
  rw [sentenceStep_eq t hl hs, bind_eq_ok] at h
  obtain ⟨r, hr, h⟩ := h
  obtain ⟨ws, hres, hoff⟩ := sentenceOffsets_spec hr
  rw [hoff] at h
  have he : ∀ st : TokState, emitTokens s st (offsetsFrom 0 ws) = .ok
      { st with
        tokens := st.tokens ++ tokensFor st.bytePosition st.position ws
        position := st.position + ws.length
        bytePosition := st.bytePosition + blen (surfaces ws) } := by
    intro st
    rcases hres.surfaces with ⟨h1, h2⟩ | h1
    · exact emitTokens_spec (pre := []) (by simp [h1]) h2 st
    · subst h1; simp [offsetsFrom, emitTokens, tokensFor]
  rw [he] at h
  cases h
  exact ⟨latInv_latOf _ _ _ _, ws, hres, rfl, rfl, rfl⟩

theorem tokensFor_append (byte pos : Nat) (a b : List Word) :
    tokensFor byte pos (a ++ b) = tokensFor byte pos a ++ tokensFor (byte + blen (surfaces a)) (pos + a.length) b := by
  induction a generalizing byte pos with
  | nil => simp [tokensFor]
  | cons w a ih =>
    simp only [List.cons_append, tokensFor, ih, surfaces_cons, blen_append, List.length_cons]
    congr 3 <;> omega

theorem fold_spec {t : Tokenizer} {ss : List Str} (hne : ∀ s ∈ ss, s ≠ []) {st st' : TokState}
    (hl : LatInv st.lattice) (h : ss.foldlM t.sentenceStep st = .ok st') :
    ∃ segs : List (List Word), List.Forall₂ (SentenceResult t.env t.dictionary.costMatrix) ss segs ∧
      st'.tokens = st.tokens ++ tokensFor st.bytePosition st.position segs.flatten := by
  induction ss generalizing st with
  | nil =>
    simp at h
    subst h
    exact ⟨[], .nil, by simp [tokensFor]⟩
  | cons s ss ih =>
    rw [List.foldlM_cons, bind_eq_ok] at h
    obtain ⟨st1, h1, h2⟩ := h
    obtain ⟨hl1, ws, hres, ht, hp, hb⟩ := sentenceStep_spec hl (hne s (by simp)) h1
    obtain ⟨segs, hf, htok⟩ := ih (fun x hx => hne x (by simp [hx])) hl1 h2
    refine ⟨ws :: segs, .cons hres hf, ?_⟩
    rw [htok, ht, hp, hb, List.flatten_cons, tokensFor_append, List.append_assoc]

/-- The specification of `tokenize`. -/
theorem tokenize_spec {t : Tokenizer} {text : Str} {toks : List Token} (h : t.tokenize text = .ok toks) :
    ∃ segs : List (List Word),
      List.Forall₂ (SentenceResult t.env t.dictionary.costMatrix) (splitInclusive isDelimiter text) segs ∧
      toks = tokensFor 0 0 segs.flatten := by
  unfold Tokenizer.tokenize at h
  rw [bind_eq_ok] at h
  obtain ⟨st, hst, h⟩ := h
  simp at h
  subst h
  obtain ⟨segs, hf, ht⟩ := fold_spec (splitInclusive_ne _ _) latInv_default hst
  exact ⟨segs, hf, by simpa using ht⟩

end Verif.Model
