import Verif.Proofs.Tokenizer
import Verif.Spec.Modes
/-! Tokenization in two modes that look at the same words: the result stays the same when no word becomes cheaper and the words of the result keep their penalties. -/
namespace Verif.Model
open Verif.Spec

variable {env env' : LatticeEnv} {text : Str} {es edges edges' : List Edge} {m : ConnMatrix} {ue ue' : Option Nat}

theorem Origin.same {e : Edge} {pre pre' rest rest' : Str} {t t' : EdgeType} {w w' : Word}
    (h : Origin env text es e pre rest t w) (h' : Origin env' text es e pre' rest' t' w') : pre = pre' ∧ w = w' := by
  obtain ⟨ht, _, he, _, _, _, hw⟩ := h
  obtain ⟨ht', _, he', _, _, _, hw'⟩ := h'
  rw [he] at he'
  simp only [wordEdge, Edge.mk.injEq] at he'
  obtain ⟨h1, h2, _, _, h3, h4, _⟩ := he'
  obtain ⟨rfl, rfl⟩ := prefix_unique (ht.symm.trans ht') h3
  obtain ⟨post, hp⟩ := hw.wordAt.ne.2
  obtain ⟨post', hp'⟩ := hw'.wordAt.ne.2
  have := (prefix_unique (hp.trans hp'.symm) (by omega)).1
  refine ⟨rfl, ?_⟩
  cases w; cases w'; simp_all

/-- What the back pointers of one lattice spell is a segmentation for the other as well. -/
theorem Chain.transfer (hI : ScanInv env text (blen text) es ue) {id : Nat} {pre : Str} {ws : List Word} (h : Chain env' text es edges' id pre ws) : SegTo env text pre ws := by
  induction h with
  | bos => exact .nil
  | step he0 ho _ _ _ _ ih =>
    obtain ⟨_, pre2, rest2, t2, w2, ho2⟩ := hI.sound _ (List.mem_of_getElem? he0)
    obtain ⟨rfl, rfl⟩ := ho.same ho2
    exact .snoc ih (usable_of_origin ho2)

theorem penalty_mono_inner {mode mode' : Mode} (hp : ∀ s, penalty mode s ≤ penalty mode' s) (left : WordEntry) (ws : List Word) : inner m mode left ws ≤ inner m mode' left ws := by
  induction ws generalizing left with
  | nil => exact Int.le_refl _
  | cons w ws ih =>
    have := hp w.surface
    have := ih w.entry
    simp only [inner]
    omega

/-- One more transition is added without overflow. -/
theorem value_add (hI : ScanInv env text (blen text) es ue) (hB : Settled m env.mode (blen text) es edges) (hno : InRange env m text)
    {p id : Nat} (hid : id ∈ endIds es p) {e : Edge} (he : edges[id]? = some e) {w : WordEntry} {cc : Int32}
    (hcc : m.cost e.wordEntry.rightId.toUInt32 w.leftId.toUInt32 = .ok cc) :
    (e.pathCost + cc + env.mode.penaltyCost e).toInt = (e.pathCost + env.mode.penaltyCost e).toInt + conn m e.wordEntry w := by
  obtain ⟨pre, ws, hpre, hch⟩ := path_to hI hB _ _ hid
  obtain ⟨e', he', hlast, hcost⟩ := hch.edge
  rw [he] at he'
  cases he'
  have hb0 := hno _ _ hch.seg 0 (by simp)
  have hb := hno _ _ hch.seg (conn m e.wordEntry w) (conn_le _ _ _)
  have e1 : e.pathCost + cc + env.mode.penaltyCost e = Int32.ofInt (inner m env.mode .default ws + conn m e.wordEntry w) := by
    rw [Int32.ofInt_add, ← hcost, ← conn_of_cost hcc]
    ac_rfl
  rw [e1, hcost, Int32.toInt_ofInt_of_le hb.1 hb.2, Int32.toInt_ofInt_of_le (by omega) (by omega)]

/-- No edge is cheaper in the dearer mode. -/
theorem value_mono (hI : ScanInv env text (blen text) es ue) (hI' : ScanInv env' text (blen text) es ue') (hB : Settled m env.mode (blen text) es edges)
    (hB' : Settled m env'.mode (blen text) es edges') (hno : InRange env m text) (hno' : InRange env' m text)
    (hp : ∀ s, penalty env.mode s ≤ penalty env'.mode s) {p id : Nat} (hid : id ∈ endIds es p) {e e' : Edge} (he : edges[id]? = some e) (he' : edges'[id]? = some e') :
    (e.pathCost + env.mode.penaltyCost e).toInt ≤ (e'.pathCost + env'.mode.penaltyCost e').toInt := by
  obtain ⟨pre, ws, hpre, hch⟩ := path_to hI' hB' _ _ hid
  obtain ⟨e2, he2, -, hcost⟩ := hch.edge
  rw [he'] at he2
  cases he2
  have hb0 := hno' _ _ hch.seg 0 (by simp)
  rw [hcost, Int32.toInt_ofInt_of_le (by omega) (by omega)]
  refine Int.le_trans ?_ (penalty_mono_inner hp _ _)
  cases hch.chain with
  | bos =>
    rw [hB.bos] at he
    cases he
    rw [penaltyCost_default]
    simp [inner, Edge.default]
  | step he0 ho hk hl hle hc =>
    obtain ⟨_, pre2, rest2, t2, w2, ho2⟩ := hI.sound _ (List.mem_of_getElem? he0)
    obtain ⟨rfl, rfl⟩ := ho.same ho2
    obtain ⟨x, hx, -, hle⟩ := optimal_edge hI hB hno (optimal hI hB hno (hc.transfer hI)) he0 ho2
    rw [he] at hx
    cases hx
    exact hle

theorem costs_ids {mode : Mode} {w : WordEntry} {ids : List Nat} {costs : List (Int32 × Nat)} (h : ids.mapM (leftCostE edges m mode w) = .ok costs) : costs.map (·.2) = ids := by
  induction ids generalizing costs with
  | nil => simp at h; subst h; rfl
  | cons i ids ih =>
    rw [List.mapM_cons, bind_eq_ok] at h
    obtain ⟨y, hy, h⟩ := h
    rw [bind_eq_ok] at h
    obtain ⟨ys, hys, h⟩ := h
    cases h
    unfold leftCostE at hy
    simp only [bind_eq_ok] at hy
    obtain ⟨_, _, _, _, hy⟩ := hy
    cases hy
    rw [List.map_cons, ih hys]

theorem minByCost_first {xs : List (Int32 × Nat)} (hs : (xs.map (·.2)).Pairwise (· < ·)) {c d : Int32} {l k : Nat} (h : minByCost xs = some (c, l)) (hk : (d, k) ∈ xs)
    (hd : d.toInt ≤ c.toInt) : l ≤ k := by
  obtain ⟨a, b, rfl, ha, hb⟩ := minByCost_spec h
  rcases List.mem_append.mp hk with hk | hk
  · have := ha _ hk
    rw [Int32.lt_iff_toInt_lt] at this
    simp only at this
    omega
  · rcases List.mem_cons.mp hk with hk | hk
    · cases hk
      exact Nat.le_refl _
    · rw [List.map_append, List.pairwise_append, List.map_cons, List.pairwise_cons] at hs
      exact Nat.le_of_lt (hs.2.1.1 k (List.mem_map_of_mem hk))

/-- The chosen predecessor stays the chosen one if it keeps its cost. -/
theorem step_same (hI : ScanInv env text (blen text) es ue) (hI' : ScanInv env' text (blen text) es ue') (hB : Settled m env.mode (blen text) es edges)
    (hB' : Settled m env'.mode (blen text) es edges') (hno : InRange env m text) (hno' : InRange env' m text)
    (hp : ∀ s, penalty env.mode s ≤ penalty env'.mode s) {p : Nat} (hr : reached es p = true) {e e' : Edge} (hw : e'.wordEntry = e.wordEntry)
    (hb : Bellman m env.mode es edges p e) (hb' : Bellman m env'.mode es edges' p e') {l : Nat} (hl : e.leftEdge = some l)
    (hv : ∀ x x', edges[l]? = some x → edges'[l]? = some x' → x'.pathCost + env'.mode.penaltyCost x' = x.pathCost + env.mode.penaltyCost x) :
    e'.leftEdge = some l ∧ e'.pathCost = e.pathCost := by
  obtain ⟨costs, c, l1, left, cc, hc, hm, hl1, hpc, hle, hleft, hcc, hceq⟩ := hb.left hr
  rw [hl] at hl1
  cases hl1
  obtain ⟨costs', c', l', left', cc', hc', hm', hl', hpc', hle', hleft', hcc', hceq'⟩ := hb'.left hr
  have hent : ∀ {i : Nat} {x x' : Edge}, edges[i]? = some x → edges'[i]? = some x' → x.wordEntry = x'.wordEntry := by
    intro i x x' hx hx'
    obtain ⟨a, ha, hs⟩ := hB.same i x hx
    obtain ⟨b, hbb, hs'⟩ := hB'.same i x' hx'
    rw [ha] at hbb
    cases hbb
    exact hs.2.1.trans hs'.2.1.symm
  have hex : ∀ i : Nat, (∃ x, edges[i]? = some x) ↔ ∃ x, edges'[i]? = some x := by
    intro i
    have h1 := hB.length
    have h2 := hB'.length
    constructor
    · rintro ⟨x, hx⟩
      have := (List.getElem?_eq_some_iff.mp hx).1
      exact ⟨edges'[i]'(by omega), List.getElem?_eq_getElem _⟩
    · rintro ⟨x, hx⟩
      have := (List.getElem?_eq_some_iff.mp hx).1
      exact ⟨edges[i]'(by omega), List.getElem?_eq_getElem _⟩
  -- the entry of `l` in the other list of costs
  obtain ⟨y, hy⟩ := (hex l).mp ⟨left, hleft⟩
  have hylc : leftCostE edges' m env'.mode e'.wordEntry l = .ok (c, l) := by
    unfold leftCostE
    rw [hy, orPanic_some, bind_ok, ← hent hleft hy, hw, hcc, bind_ok, pure_eq_ok, hceq]
    have h2 := hv left y hleft hy
    have h3 : y.pathCost + cc + env'.mode.penaltyCost y = left.pathCost + cc + env.mode.penaltyCost left := by
      calc y.pathCost + cc + env'.mode.penaltyCost y = y.pathCost + env'.mode.penaltyCost y + cc := by ac_rfl
        _ = left.pathCost + env.mode.penaltyCost left + cc := by rw [h2]
        _ = _ := by ac_rfl
    rw [h3]
  obtain ⟨y1, hy1, hy2⟩ := mem_mapM_ok hc' hle
  rw [hylc] at hy2
  cases hy2
  have hmin' := (minByCost_le hm').2 _ hy1
  -- the entry of `l'` in the first list of costs
  obtain ⟨z, hz⟩ := (hex l').mpr ⟨left', hleft'⟩
  have hzcc : m.cost z.wordEntry.rightId.toUInt32 e.wordEntry.leftId.toUInt32 = .ok cc' := by rw [hent hz hleft', ← hw]; exact hcc'
  have hzlc : leftCostE edges m env.mode e.wordEntry l' = .ok (z.pathCost + cc' + env.mode.penaltyCost z, l') := by
    unfold leftCostE
    rw [hz, orPanic_some, bind_ok, hzcc, bind_ok, pure_eq_ok]
  obtain ⟨z1, hz1, hz2⟩ := mem_mapM_ok hc hle'
  rw [hzlc] at hz2
  cases hz2
  have hmin := (minByCost_le hm).2 _ hz1
  have hva := value_add hI hB hno hle' hz hzcc
  have hva' := value_add hI' hB' hno' hle' hleft' hcc'
  have hvm := value_mono hI hI' hB hB' hno hno' hp hle' hz hleft'
  rw [← hceq', ← hent hz hleft', hw] at hva'
  simp only at hmin hmin'
  have hcI : c.toInt = c'.toInt := by omega
  have hcc2 : c = c' := Int32.toInt_inj.mp hcI
  have hll : l = l' := by
    have h1 : l ≤ l' := minByCost_first (by rw [costs_ids hc]; exact endIds_sorted es p) hm hz1 (by omega)
    have h2 : l' ≤ l := minByCost_first (by rw [costs_ids hc']; exact endIds_sorted es p) hm' hy1 (by omega)
    omega
  subst hll
  refine ⟨hl', ?_⟩
  rw [hpc, hpc', hw, hcc2]

/-- Along the back pointers of the first lattice, the second one has the same pointers. -/
theorem chain_same (hI : ScanInv env text (blen text) es ue) (hI' : ScanInv env' text (blen text) es ue') (hB : Settled m env.mode (blen text) es edges)
    (hB' : Settled m env'.mode (blen text) es edges') (hno : InRange env m text) (hno' : InRange env' m text)
    (hp : ∀ s, penalty env.mode s ≤ penalty env'.mode s) {id : Nat} {pre : Str} {ws : List Word} (h : Chain env text es edges id pre ws)
    (hw : ∀ w ∈ ws, penalty env'.mode w.surface = penalty env.mode w.surface) :
    (∀ x x', edges[id]? = some x → edges'[id]? = some x' → x'.pathCost + env'.mode.penaltyCost x' = x.pathCost + env.mode.penaltyCost x) ∧
    ∀ fuel, Lattice.followLeft ⟨0, edges', [], []⟩ fuel id = Lattice.followLeft ⟨0, edges, [], []⟩ fuel id := by
  induction h with
  | bos =>
    refine ⟨?_, ?_⟩
    · intro x x' hx hx'
      rw [hB.bos] at hx
      rw [hB'.bos] at hx'
      cases hx
      cases hx'
      rw [penaltyCost_default, penaltyCost_default]
    · intro fuel
      cases fuel with
      | zero => rfl
      | succ fuel =>
        simp only [Lattice.followLeft, hB.bos, hB'.bos, orPanic_some, bind_ok]
        rfl
  | @step k e0 e pre rest t w l ws he0 ho he hl hend hch ih =>
    obtain ⟨hv, hf⟩ := ih fun v hv => hw v (by simp [hv])
    obtain ⟨e', he', hs'⟩ := hB'.get he0
    obtain ⟨e2, he2, hs⟩ := hB.get he0
    rw [he] at he2
    cases he2
    have hpos : posOf (blen text) es (k + 2) = some (blen pre) := by simp [posOf, he0, ho.bounds.1]
    have hent : e'.wordEntry = e.wordEntry := hs'.2.1.trans hs.2.1.symm
    obtain ⟨h1, h2⟩ := step_same hI hI' hB hB' hno hno' hp ho.2.1 hent (hB.bellman _ _ hpos _ he) (hB'.bellman _ _ hpos _ he') hl hv
    refine ⟨?_, ?_⟩
    · intro x x' hx hx'
      rw [he] at hx
      rw [he'] at hx'
      cases hx
      cases hx'
      have heq := ho.2.2.1
      rw [heq] at hs hs'
      rw [penaltyCost_word hs, penaltyCost_word hs', hw w (by simp), h2]
    · intro fuel
      cases fuel with
      | zero => rfl
      | succ fuel =>
        simp only [Lattice.followLeft, he, he', orPanic_some, bind_ok, hl, h1, hf, hent, hs.2.2.1, hs'.2.2.1]

/-- One sentence in two modes. -/
theorem sentence_same {r r' : List Edge × List Edge × List (Nat × WordId)} (h : sentenceOffsets env m text = .ok r) (h' : sentenceOffsets env' m text = .ok r')
    (hgen : ∀ es, gen env text = .ok es → gen env' text = .ok es) (hno : InRange env m text) (hno' : InRange env' m text)
    (hp : ∀ s, penalty env.mode s ≤ penalty env'.mode s) :
    ∃ ws, r.2.2 = offsetsFrom 0 ws ∧ ((surfaces ws = text ∧ ∀ w ∈ ws, w.surface ≠ []) ∨ ws = []) ∧
      ((∀ w ∈ ws, penalty env'.mode w.surface = penalty env.mode w.surface) → r'.2.2 = offsetsFrom 0 ws) := by
  unfold sentenceOffsets at h h'
  simp only [bind_eq_ok] at h h'
  obtain ⟨es, hg, edges, hc, offs, ho, h⟩ := h
  obtain ⟨es', hg', edges', hc', offs', ho', h'⟩ := h'
  have := hgen _ hg
  rw [hg'] at this
  cases this
  cases h
  cases h'
  obtain ⟨ue, hI⟩ := gen_inv hg
  obtain ⟨ue', hI'⟩ := gen_inv hg'
  have hb := gen_bounds hg
  have hB := calcE_settled (fun e he => (hb e he).1) (fun e he => (hb e he).2.1) (fun e he => (hb e he).2.2) hc
  have hB' := calcE_settled (fun e he => (hb e he).1) (fun e he => (hb e he).2.1) (fun e he => (hb e he).2.2) hc'
  rcases tokensOffset_spec hI hB ⟨0, edges, [], []⟩ rfl with ⟨ws, hs, hw, hopt, -, eos, lf, heos, hlf, hle, hch⟩ | ⟨hno, hw⟩
  · rw [hw] at ho
    cases ho
    rw [segmentation_iff] at hs
    refine ⟨ws, rfl, .inl ⟨hs.surfaces_eq, hs.words_ne⟩, fun hpen => ?_⟩
    obtain ⟨hv, hf⟩ := chain_same hI hI' hB hB' hno hno' hp hch hpen
    obtain ⟨eos', heos'⟩ : ∃ e, edges'[1]? = some e := by
      have : 1 < edges'.length := by rw [hB'.length]; omega
      exact ⟨edges'[1], by simp [this]⟩
    have hlen : edges'.length = edges.length := by rw [hB'.length, hB.length]
    obtain ⟨a, ha, hsa⟩ := hB.same 1 eos heos
    obtain ⟨b, hbb, hsb⟩ := hB'.same 1 eos' heos'
    rw [ha] at hbb
    cases hbb
    have hent : eos'.wordEntry = eos.wordEntry := hsb.2.1.trans hsa.2.1.symm
    have hr : reached es (blen text) = true := reached_of_segTo hI hs
    obtain ⟨h1, h2⟩ := step_same hI hI' hB hB' hno hno' hp hr hent (hB.bellman 1 _ rfl _ heos) (hB'.bellman 1 _ rfl _ heos') hlf hv
    have : Lattice.tokensOffset ⟨0, edges', [], []⟩ = Lattice.tokensOffset ⟨0, edges, [], []⟩ := by
      unfold Lattice.tokensOffset
      simp only [hlen]
      have : Lattice.followLeft ⟨0, edges', [], []⟩ (edges.length + 1) eosNode = Lattice.followLeft ⟨0, edges, [], []⟩ (edges.length + 1) eosNode := by
        simp only [Lattice.followLeft, eosNode, heos, heos', orPanic_some, bind_ok, hlf, h1, hf, hent, hsa.2.2.1, hsb.2.2.1]
      rw [this]
    rw [this, hw] at ho'
    cases ho'
    rfl
  · rw [hw] at ho
    cases ho
    refine ⟨[], rfl, .inr rfl, fun _ => ?_⟩
    rcases tokensOffset_spec hI' hB' ⟨0, edges', [], []⟩ rfl with ⟨ws, hs, hw', -, -, eos, lf, heos, hlf, hle, hch⟩ | ⟨hno', hw'⟩
    · exact absurd ⟨ws, segmentation_iff.mpr (hch.transfer hI)⟩ hno
    · rw [hw'] at ho'
      cases ho'
      rfl

/-- Two tokenizers that see the same words in every sentence of a text. -/
theorem tokenize_modes {t t' : Tokenizer} (hm : t'.dictionary.costMatrix = t.dictionary.costMatrix) (hp : ∀ s, penalty t.mode s ≤ penalty t'.mode s) {text : Str}
    (hgen : ∀ s ∈ splitInclusive isDelimiter text, ∀ es, gen t.env s = .ok es → gen t'.env s = .ok es)
    (hno : ∀ s ∈ splitInclusive isDelimiter text, CostsFit t.env t.dictionary.costMatrix s ∧ CostsFit t'.env t.dictionary.costMatrix s) {toks toks' : List Token} (h : t.tokenize text = .ok toks)
    (h' : t'.tokenize text = .ok toks') (hpen : ∀ tok ∈ toks, penalty t'.mode tok.text = penalty t.mode tok.text) : toks' = toks := by
  unfold Tokenizer.tokenize at h h'
  rw [bind_eq_ok] at h h'
  obtain ⟨st, hst, h⟩ := h
  obtain ⟨st', hst', h'⟩ := h'
  cases h
  cases h'
  have key : ∀ (ss : List Str), (∀ s ∈ ss, s ≠ []) → (∀ s ∈ ss, ∀ es, gen t.env s = .ok es → gen t'.env s = .ok es) → (∀ s ∈ ss, CostsFit t.env t.dictionary.costMatrix s ∧ CostsFit t'.env t.dictionary.costMatrix s) →
      ∀ (a a' b b' : TokState), LatInv a.lattice → LatInv a'.lattice → a'.tokens = a.tokens → a'.position = a.position → a'.bytePosition = a.bytePosition →
      ss.foldlM t.sentenceStep a = .ok b → ss.foldlM t'.sentenceStep a' = .ok b' → (∀ tok ∈ b.tokens, penalty t'.mode tok.text = penalty t.mode tok.text) → b'.tokens = b.tokens := by
    intro ss
    induction ss with
    | nil =>
      intro _ _ _ a a' b b' _ _ h1 _ _ h4 h5 _
      cases h4
      cases h5
      exact h1
    | cons s ss ih =>
      intro hne hgen hno a a' b b' hl hl' h1 h2 h3 h4 h5 h6
      rw [List.foldlM_cons, bind_eq_ok] at h4 h5
      obtain ⟨x, hx, h4⟩ := h4
      obtain ⟨x', hx', h5⟩ := h5
      have hs := hne s (by simp)
      rw [sentenceStep_eq t hl hs, bind_eq_ok] at hx
      rw [sentenceStep_eq t' hl' hs, bind_eq_ok, hm] at hx'
      obtain ⟨r, hr, hx⟩ := hx
      obtain ⟨r', hr', hx'⟩ := hx'
      obtain ⟨ws, ho, hsurf, hsame⟩ := sentence_same hr hr' (hgen s (by simp)) (hno s (by simp)).1.inRange (hno s (by simp)).2.inRange hp
      have he : ∀ st : TokState, emitTokens s st (offsetsFrom 0 ws) = .ok
          { st with
            tokens := st.tokens ++ tokensFor st.bytePosition st.position ws
            position := st.position + ws.length
            bytePosition := st.bytePosition + blen (surfaces ws) } := by
        intro st
        rcases hsurf with ⟨g1, g2⟩ | g1
        · exact emitTokens_spec (pre := []) (by simp [g1]) g2 st
        · subst g1; simp [offsetsFrom, emitTokens, tokensFor]
      rw [ho, he] at hx
      cases hx
      obtain ⟨segs, -, hfin⟩ := fold_spec (fun y hy => hne y (by simp [hy])) (latInv_latOf _ _ _ _) h4
      have hpw : ∀ w ∈ ws, penalty t'.mode w.surface = penalty t.mode w.surface := by
        intro w hw
        obtain ⟨tok, ht, he⟩ : ∃ tok ∈ tokensFor a.bytePosition a.position ws, tok.text = w.surface := by
          clear he ho hsurf hsame h4 hfin
          generalize a.bytePosition = i
          generalize a.position = j
          induction ws generalizing i j with
          | nil => simp at hw
          | cons v vs ih =>
            rcases List.mem_cons.mp hw with rfl | hw
            · exact ⟨_, by rw [tokensFor]; exact List.mem_cons_self, rfl⟩
            · obtain ⟨tok, h1, h2⟩ := ih hw (i + blen v.surface) (j + 1)
              exact ⟨tok, by rw [tokensFor]; exact List.mem_cons_of_mem _ h1, h2⟩
        rw [← he]
        refine h6 tok ?_
        rw [hfin]
        simp only [List.mem_append]
        exact .inl (.inr ht)
      rw [hsame hpw, he] at hx'
      cases hx'
      exact ih (fun y hy => hne y (by simp [hy])) (fun y hy => hgen y (by simp [hy])) (fun y hy => hno y (by simp [hy])) _ _ _ _ (latInv_latOf _ _ _ _) (latInv_latOf _ _ _ _)
        (by simp only [h1, h2, h3]) (by simp only [h2]) (by simp only [h3]) h4 h5 h6
  exact key _ (splitInclusive_ne _ _) hgen hno _ _ _ _ latInv_default latInv_default rfl rfl rfl hst hst' hpen

/-! ### The words in use -/

/-- The edges do not depend on the mode if unknown words are looked for at the same places. -/
theorem gen_mode {env : LatticeEnv} {mode' : Mode} {text : Str}
    (hsame : ∀ k reach latest, k < blen text → Scan env text k reach latest → reach k → unknownAllowed mode' latest k = unknownAllowed env.mode latest k) {es : List Edge}
    (h : gen env text = .ok es) : gen { env with mode := mode' } text = .ok es := by
  unfold gen at h ⊢
  rw [bind_eq_ok] at h
  obtain ⟨⟨es1, ue⟩, hf, h⟩ := h
  have key : ∀ (n : Nat), n ≤ blen text → ∀ (st : List Edge × Option Nat), (List.range n).foldlM (genStep env text) ([], none) = .ok st →
      (List.range n).foldlM (genStep { env with mode := mode' } text) ([], none) = .ok st := by
    intro n
    induction n with
    | zero => intro _ st hst; exact hst
    | succ n ih =>
      intro hn st hst
      rw [List.range_succ, List.foldlM_append, bind_eq_ok] at hst ⊢
      obtain ⟨st1, h1, h2⟩ := hst
      refine ⟨st1, ih (by omega) st1 h1, ?_⟩
      have hI := foldlM_range_inv n (fun k st => ScanInv env text k st.1 st.2)
        (by
          rintro i ⟨a, b⟩ ⟨a', b'⟩ _ hP hf
          exact genStep_inv hP hf)
        ([], none) st1 ⟨⟨_, .start, by simp [reached]⟩, by simp, by simp, by simp⟩ h1
      obtain ⟨reach, hs, hreach⟩ := hI.scan
      simp only [List.foldlM_cons, List.foldlM_nil] at h2 ⊢
      have : genStep { env with mode := mode' } text st1 n = genStep env text st1 n := by
        unfold genStep
        by_cases hr : reached st1.1 n = true
        · rw [if_pos hr, if_pos hr]
          have hu := hsame n reach st1.2 (by omega) hs ((hreach n).mpr hr)
          have : ∀ suffix, newEdges { env with mode := mode' } n suffix st1.2 = newEdges env n suffix st1.2 := by
            intro suffix
            unfold newEdges
            rw [show unknownAllowed ({ env with mode := mode' } : LatticeEnv).mode st1.2 n = unknownAllowed env.mode st1.2 n from hu]
            rfl
          simp only [this]
        · rw [if_neg hr, if_neg hr]
      rw [this]
      exact h2
  rw [bind_eq_ok]
  exact ⟨_, key _ (Nat.le_refl _) _ hf, h⟩

theorem lastProposal_exists (env : LatticeEnv) (rest : Str) (k : Nat) : ∃ o, LastProposal env rest k o := by
  by_cases h : ∃ cat ord s, Proposes env rest cat ord s
  · have hbound : ∃ n, ∀ cat ord s, Proposes env rest cat ord s → ord < n := by
      obtain ⟨cat, ord, s, c, tail, cats, data, hr, hc, -⟩ := h
      refine ⟨cats.length, ?_⟩
      rintro cat' ord' s' ⟨c', tail', cats', data', hr', hc', ho', -⟩
      rw [hr] at hr'
      cases hr'
      rw [hc] at hc'
      cases hc'
      exact (List.getElem?_eq_some_iff.mp ho').1
    obtain ⟨n, hn⟩ := hbound
    have : ∀ d, (∃ cat ord s, Proposes env rest cat ord s ∧ n - d ≤ ord) → ∃ cat ord s, Proposes env rest cat ord s ∧ ∀ cat' ord' s', Proposes env rest cat' ord' s' → ord' ≤ ord := by
      intro d
      induction d with
      | zero =>
        rintro ⟨cat, ord, s, hp, hle⟩
        have := hn _ _ _ hp
        omega
      | succ d ih =>
        intro hex
        by_cases hd : ∃ cat ord s, Proposes env rest cat ord s ∧ n - d ≤ ord
        · exact ih hd
        · obtain ⟨cat, ord, s, hp, hle⟩ := hex
          refine ⟨cat, ord, s, hp, fun cat' ord' s' hp' => ?_⟩
          by_contra hgt
          exact hd ⟨cat', ord', s', hp', by omega⟩
    obtain ⟨cat, ord, s, hp⟩ := h
    obtain ⟨cat, ord, s, hp, hmax⟩ := this n ⟨cat, ord, s, hp, by omega⟩
    exact ⟨_, .inl ⟨cat, ord, s, hp, rfl, hmax⟩⟩
  · exact ⟨none, .inr ⟨rfl, h⟩⟩

/-- The scan never gets stuck. -/
theorem scan_exists (env : LatticeEnv) (text : Str) : ∀ k, ∃ reach latest, Scan env text k reach latest ∧ ∀ p, reach p → ∃ pre rest, text = pre ++ rest ∧ blen pre = p
  | 0 => ⟨_, _, .start, fun p hp => ⟨[], text, rfl, hp.symm⟩⟩
  | k + 1 => by
    obtain ⟨reach, latest, hs, hb⟩ := scan_exists env text k
    by_cases hr : reach k
    · obtain ⟨pre, rest, ht, hk⟩ := hb k hr
      have hb' : ∀ p, (reach p ∨ ∃ w, WordAt env rest k latest w ∧ p = k + blen w.surface) → ∃ pre rest, text = pre ++ rest ∧ blen pre = p := by
        rintro p (hp | ⟨w, hw, rfl⟩)
        · exact hb p hp
        · obtain ⟨post, hpost⟩ := hw.ne.2
          exact ⟨pre ++ w.surface, post, by rw [ht, ← hpost, List.append_assoc], by rw [blen_append, hk]⟩
      by_cases ho : unknownOpen env.mode latest k
      · obtain ⟨o, hl⟩ := lastProposal_exists env rest k
        exact ⟨_, _, .opened hs hr ht hk ho hl, hb'⟩
      · exact ⟨_, _, .closed hs hr ht hk ho, hb'⟩
    · exact ⟨_, _, .skip hs hr, hb⟩

/-- A mode in which unknown words are looked for everywhere admits all segmentations. -/
theorem segFrom_search {env : LatticeEnv} {p : Penalty} {text : Str} : ∀ {ws : List Word} {pre : Str}, SegFrom env text pre ws → SegFrom { env with mode := .decompose p } text pre ws
  | [], _, h => h
  | w :: ws, pre, h => by
    refine ⟨?_, segFrom_search h.2⟩
    obtain ⟨rest, -, latest, ht, -, hw⟩ := h.1
    obtain ⟨reach', latest', hs', -⟩ := scan_exists { env with mode := .decompose p } text (blen pre)
    refine ⟨rest, reach', latest', ht, hs', ?_⟩
    rcases hw with hw | ⟨-, hw⟩
    · exact .inl hw
    · exact .inr ⟨.inl (by simp), hw⟩

theorem costFrom_penalty (m : ConnMatrix) (mode : Mode) (left : WordEntry) (ws : List Word) : costFrom m mode left ws = costFrom m .normal left ws + totalPenalty mode ws := by
  induction ws generalizing left with
  | nil => simp [costFrom, totalPenalty]
  | cons w ws ih =>
    have := ih w.entry
    simp only [costFrom, totalPenalty, List.map_cons, List.sum_cons, penalty] at this ⊢
    omega

/-- A run of the scan decides `NeverInside`. -/
theorem neverInside_of_run {t : Tokenizer} {text : Str}
    (h : ∀ k, k < blen text → ∃ st, (List.range k).foldlM (genStep (inMode t .normal).env text) ([], none) = .ok st ∧ (reached st.1 k = true → ∀ e, st.2 = some e → e ≤ k)) :
    NeverInside t text := by
  intro k reach latest hk hs hr e he
  obtain ⟨st, hst, hle⟩ := h k hk
  have hI := foldlM_range_inv k (fun k st => ScanInv (inMode t .normal).env text k st.1 st.2)
    (by
      rintro i ⟨a, b⟩ ⟨a', b'⟩ _ hP hf
      exact genStep_inv hP hf)
    ([], none) st ⟨⟨_, .start, by simp [reached]⟩, by simp, by simp, by simp⟩ hst
  obtain ⟨reach', hs', hreach'⟩ := hI.scan
  obtain ⟨h1, h2⟩ := hs.unique hs'
  exact hle ((hreach' k).mp ((h2 k).mp hr)) e (by rw [← h1]; exact he)

/-- The check of `neverInside_of_run` at one position. -/
def insideCheck (env : LatticeEnv) (text : Str) (k : Nat) : Bool :=
  match (List.range k).foldlM (genStep env text) ([], none) with
  | .ok st => !reached st.1 k || st.2.all (· ≤ k)
  | .error _ => false

theorem neverInside_of_check {t : Tokenizer} {text : Str} (h : ∀ k, k < blen text → insideCheck (inMode t .normal).env text k = true) : NeverInside t text := by
  refine neverInside_of_run fun k hk => ?_
  have := h k hk
  unfold insideCheck at this
  split at this
  · rename_i st hst
    refine ⟨st, hst, fun hr e he => ?_⟩
    rw [hr, he] at this
    simpa using this
  · cases this

end Verif.Model
