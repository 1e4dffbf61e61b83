import Verif.Proofs.Coverage
/-! Tokenizing with a consistent dictionary never panics. -/
namespace Verif.Model
open Verif.Spec

/-- The part of consistency that concerns `set_text`. -/
structure EnvOk (forward backward : Nat) (env : LatticeEnv) : Prop where
  dict : DictOk forward backward env.dict
  user : ∀ u, env.userDict = some u → DictOk forward backward u
  cats : ∀ c : Char, ∃ cats, env.charDefs.lookupCategories c = .ok cats ∧
    ∀ cat ∈ cats, (∃ data, env.charDefs.lookupDefinition cat = .ok data) ∧
      ∃ ids, env.unk.lookupWordIds cat = .ok ids ∧
        ∀ id ∈ ids, ∃ w, env.unk.wordEntry id = .ok w ∧ InMatrix forward backward w

theorem exactMatch_mem {da : DoubleArray} {k : List UInt8} {v : UInt32} (h : da.exactMatch k = some v) :
    (k, v) ∈ da.keys := by
  unfold DoubleArray.exactMatch at h
  rw [Option.map_eq_some_iff] at h
  obtain ⟨⟨k', v'⟩, hf, rfl⟩ := h
  have h1 := List.mem_of_find?_eq_some hf
  have h2 := List.find?_some hf
  simp at h2
  subst h2
  exact h1

theorem prefix_total {f b : Nat} {d : PrefixDict} (hd : DictOk f b d) (s : Str) :
    ∃ ws, d.prefix s = .ok ws := by
  unfold PrefixDict.prefix
  have : ∃ groups, (d.da.commonPrefixSearch (utf8 s)).mapM (fun (x : UInt32 × Nat) => do
      let es ← d.entriesAt x.1
      return es.map fun e => (x.2, e)) = .ok groups := by
    apply mapM_total
    rintro ⟨v, n⟩ hx
    obtain ⟨_, _, he⟩ := mem_commonPrefixSearch.mp hx
    obtain ⟨_, es, hes, _⟩ := hd _ _ he
    exact ⟨es.map fun e => (n, e), by simp only [hes, bind_ok, pure_eq_ok]⟩
  obtain ⟨groups, hg⟩ := this
  exact ⟨groups.flatten, by rw [hg]; rfl⟩

theorem dictEdges_total {f b : Nat} {d : PrefixDict} (hd : DictOk f b d) (start : Nat) (s : Str) :
    ∃ new, dictEdges d start s = .ok new ∧ ∀ e ∈ new, InMatrix f b e.wordEntry := by
  obtain ⟨ws, hws⟩ := prefix_total hd s
  have htot : ∃ new, dictEdges d start s = .ok new := by
    unfold dictEdges
    rw [hws, bind_ok]
    apply mapM_total
    rintro ⟨n, w⟩ hx
    obtain ⟨v, es, hn, hle, he, hes, hw⟩ := (mem_prefix hws).mp hx
    obtain ⟨⟨surface, hk⟩, _⟩ := hd _ _ he
    have hpre : surface <+: s := by
      apply prefix_of_utf8_prefix
      rw [← hk]; exact List.take_prefix _ _
    have hb : blen surface = n := by
      rw [← length_utf8, ← hk, List.length_take, length_utf8]; omega
    obtain ⟨r, rfl⟩ := hpre
    refine ⟨wordEdge .known w start surface, ?_⟩
    rw [← hb, takeBytes_append]
    rfl
  obtain ⟨new, hnew⟩ := htot
  refine ⟨new, hnew, ?_⟩
  intro e he
  obtain ⟨w, _, _, hin, rfl⟩ := (mem_dictEdges hnew).mp he
  obtain ⟨v, es, he1, hes, hw⟩ := findSurface_mem.mp hin
  obtain ⟨_, es', hes', hall⟩ := hd _ _ he1
  rw [hes] at hes'
  cases hes'
  exact hall _ hw

theorem countGroup_total {f b : Nat} {env : LatticeEnv} (he : EnvOk f b env) (cat ord : Nat) (s : Str) :
    ∃ n, countGroup env.charDefs cat ord s = .ok n := by
  induction s with
  | nil => exact ⟨0, rfl⟩
  | cons c cs ih =>
    obtain ⟨cats, hc, _⟩ := he.cats c
    obtain ⟨n, hn⟩ := ih
    unfold countGroup
    rw [hc, bind_ok]
    split
    · exact ⟨n + 1, by rw [hn]; rfl⟩
    · exact ⟨0, rfl⟩

theorem unkEdges_total {f b : Nat} {env : LatticeEnv} (he : EnvOk f b env) {c : Char} {cats : List Nat}
    (hc : env.charDefs.lookupCategories c = .ok cats) {cat : Nat} (hcat : cat ∈ cats) (ord start : Nat)
    (s : Str) (found : Bool) (ue : Option Nat) :
    ∃ new ue', unkEdges env.charDefs env.unk start s found ue cat ord = .ok (new, ue') ∧
      ∀ e ∈ new, InMatrix f b e.wordEntry := by
  obtain ⟨cats', hc', hall⟩ := he.cats c
  rw [hc] at hc'
  cases hc'
  obtain ⟨⟨data, hd⟩, ids, hids, hw⟩ := hall cat hcat
  have hn : ∃ n, unknownNumChars env.charDefs cat ord s found = .ok n := by
    unfold unknownNumChars
    rw [hd, bind_ok]
    split
    · split
      · obtain ⟨n, hn⟩ := countGroup_total he cat ord (s.drop 1)
        exact ⟨n + 1, by rw [hn]; rfl⟩
      · exact ⟨1, rfl⟩
    · exact ⟨0, rfl⟩
  obtain ⟨n, hn⟩ := hn
  unfold unkEdges
  rw [hn, bind_ok]
  split
  · have : ∃ new, ids.mapM (fun id => do
        let w ← env.unk.wordEntry id
        return wordEdge .unknown w start (s.take n)) = .ok new := by
      apply mapM_total
      intro id hid
      obtain ⟨w, hw, _⟩ := hw id hid
      exact ⟨_, by rw [hw]; rfl⟩
    obtain ⟨new, hnew⟩ := this
    refine ⟨new, _, by rw [hids, bind_ok, hnew]; rfl, ?_⟩
    intro e hem
    obtain ⟨id, hid, hx⟩ := mem_of_mapM_ok hnew hem
    obtain ⟨w, hw, hm⟩ := hw id hid
    rw [hw] at hx
    simp at hx
    subst hx
    exact hm
  · exact ⟨[], ue, rfl, by simp⟩

theorem allUnkEdges_total {f b : Nat} {env : LatticeEnv} (he : EnvOk f b env) (start : Nat) (s : Str)
    (found : Bool) (ue : Option Nat) :
    ∃ new ue', allUnkEdges env start s found ue = .ok (new, ue') ∧ ∀ e ∈ new, InMatrix f b e.wordEntry := by
  cases s with
  | nil => exact ⟨[], ue, rfl, by simp⟩
  | cons c cs =>
    unfold allUnkEdges
    obtain ⟨cats, hc, _⟩ := he.cats c
    simp only [hc, bind_ok]
    have := foldlM_total
      (f := fun (st : List Edge × Option Nat) (cat : Nat × Nat) => do
        let r ← unkEdges env.charDefs env.unk start (c :: cs) found st.2 cat.1 cat.2
        return (st.1 ++ r.1, r.2))
      (fun todo st => (∀ x ∈ todo, x.1 ∈ cats) ∧ ∀ e ∈ st.1, InMatrix f b e.wordEntry)
      (by
        rintro ⟨cat, ord⟩ rest ⟨acc, u⟩ ⟨h1, h2⟩
        obtain ⟨new, u', hn, hm⟩ := unkEdges_total he hc (h1 (cat, ord) (by simp)) ord start (c :: cs) found u
        refine ⟨(acc ++ new, u'), by simp only [hn, bind_ok, pure_eq_ok], fun x hx => h1 x (by simp [hx]), ?_⟩
        intro e hem
        rcases List.mem_append.mp hem with hem | hem
        · exact h2 e hem
        · exact hm e hem)
      cats.zipIdx ([], ue) ⟨by
        rintro ⟨x, i⟩ hx
        exact List.fst_mem_of_mem_zipIdx hx, by simp⟩
    obtain ⟨⟨new, ue'⟩, h1, _, h2⟩ := this
    exact ⟨new, ue', h1, h2⟩

theorem newEdges_total {f b : Nat} {env : LatticeEnv} (he : EnvOk f b env) (start : Nat) (s : Str)
    (ue : Option Nat) :
    ∃ new ue', newEdges env start s ue = .ok (new, ue') ∧ ∀ e ∈ new, InMatrix f b e.wordEntry := by
  obtain ⟨us, hu, hum⟩ : ∃ us, userEdges env start s = .ok us ∧ ∀ e ∈ us, InMatrix f b e.wordEntry := by
    unfold userEdges
    cases hud : env.userDict with
    | none => exact ⟨[], rfl, by simp⟩
    | some d => exact dictEdges_total (he.user d hud) start s
  obtain ⟨ss, hs, hsm⟩ := dictEdges_total he.dict start s
  unfold newEdges
  rw [hu, bind_ok, hs, bind_ok]
  have hus : ∀ e ∈ us ++ ss, InMatrix f b e.wordEntry := by
    intro e hem
    rcases List.mem_append.mp hem with hem | hem
    · exact hum e hem
    · exact hsm e hem
  split
  · obtain ⟨un, ue', hun, hunm⟩ := allUnkEdges_total he start s (!(us ++ ss).isEmpty) ue
    refine ⟨us ++ ss ++ un, ue', by rw [hun]; rfl, ?_⟩
    intro e hem
    rcases List.mem_append.mp hem with hem | hem
    · exact hus e hem
    · exact hunm e hem
  · exact ⟨us ++ ss, ue, rfl, hus⟩

theorem gen_total {f b : Nat} {env : LatticeEnv} (he : EnvOk f b env) (text : Str) :
    ∃ es, gen env text = .ok es ∧ ∀ e ∈ es, InMatrix f b e.wordEntry := by
  have := foldlM_range_total (f := genStep env text) (blen text)
    (fun k st => ScanInv env text k st.1 st.2 ∧ ∀ e ∈ st.1, InMatrix f b e.wordEntry)
    (by
      rintro k ⟨es, ue⟩ hk ⟨hI, hm⟩
      have hstep : ∃ es' ue', genStep env text (es, ue) k = .ok (es', ue') ∧ ∀ e ∈ es', InMatrix f b e.wordEntry := by
        unfold genStep
        simp only
        split
        · rename_i hr
          have hbd : ∃ pre rest, text = pre ++ rest ∧ blen pre = k := by
            simp only [reached, Bool.or_eq_true, beq_iff_eq, List.any_eq_true] at hr
            rcases hr with rfl | ⟨e, hem, rfl⟩
            · exact ⟨[], text, rfl, rfl⟩
            · obtain ⟨_, pre, rest, t, w, ht, _, rfl, _, _, _, hw⟩ := hI.sound e hem
              obtain ⟨post, hp⟩ := hw.wordAt.ne.2
              exact ⟨pre ++ w.surface, post, by rw [ht, ← hp, List.append_assoc], by simp [wordEdge]⟩
          obtain ⟨pre, rest, ht, hb⟩ := hbd
          have hdrop : dropBytes text k = some rest := by rw [ht, ← hb]; exact dropBytes_append _ _
          obtain ⟨new, ue', hn, hnm⟩ := newEdges_total he k rest ue
          refine ⟨es ++ new, ue', by rw [hdrop, orPanic_some, bind_ok, hn]; rfl, ?_⟩
          intro e hem
          rcases List.mem_append.mp hem with hem | hem
          · exact hm e hem
          · exact hnm e hem
        · exact ⟨es, ue, rfl, hm⟩
      obtain ⟨es', ue', hs, hm'⟩ := hstep
      exact ⟨(es', ue'), hs, genStep_inv hI hs, hm'⟩)
    ([], none) ⟨⟨⟨_, .start, by simp [reached]⟩, by simp, by simp, by simp⟩, by simp⟩
  obtain ⟨⟨es, ue⟩, h1, _, h2⟩ := this
  exact ⟨es, by unfold gen; rw [h1]; rfl, h2⟩

theorem cost_total {f b : Nat} {m : ConnMatrix} (hfb : f * b ≤ 2 ^ 32) (hb : m.backwardSize.toNat = b)
    (hlen : 2 * (f * b) ≤ m.costsData.length) {l r : WordEntry} (hl : InMatrix f b l) (hr : InMatrix f b r) :
    ∃ c, m.cost l.rightId.toUInt32 r.leftId.toUInt32 = .ok c := by
  unfold ConnMatrix.cost
  have hid : l.rightId.toNat * b + b ≤ f * b := by
    rw [← Nat.succ_mul]; exact Nat.mul_le_mul_right _ hl.1
  have hr2 := hr.2
  have hnat : (r.leftId.toUInt32 + l.rightId.toUInt32 * m.backwardSize).toNat = r.leftId.toNat + l.rightId.toNat * b := by
    rw [UInt32.toNat_add, UInt32.toNat_mul, hb]
    simp only [UInt16.toNat_toUInt32]
    rw [Nat.mod_eq_of_lt (a := l.rightId.toNat * b) (by omega), Nat.mod_eq_of_lt (by omega)]
  simp only [hnat]
  have hdrop : byteDrop m.costsData ((r.leftId.toNat + l.rightId.toNat * b) * 2) =
      some (m.costsData.drop ((r.leftId.toNat + l.rightId.toNat * b) * 2)) := by
    unfold byteDrop; rw [if_pos (by omega)]
  rw [hdrop, orPanic_some, bind_ok]
  have hlen2 : 2 ≤ (m.costsData.drop ((r.leftId.toNat + l.rightId.toNat * b) * 2)).length := by
    rw [List.length_drop]; omega
  match m.costsData.drop ((r.leftId.toNat + l.rightId.toNat * b) * 2), hlen2 with
  | x :: y :: zs, _ => exact ⟨_, rfl⟩
  | [x], h => simp at h
  | [], h => simp at h

theorem calcE_total {f b : Nat} {m : ConnMatrix} (mode : Mode) {len : Nat} {es : List Edge}
    (hf0 : 0 < f) (hb0 : 0 < b)
    (hfb : f * b ≤ 2 ^ 32) (hb : m.backwardSize.toNat = b) (hlen : 2 * (f * b) ≤ m.costsData.length)
    (hm : ∀ e ∈ es, InMatrix f b e.wordEntry) :
    ∃ edges, calcE m mode len es (Edge.default :: Edge.default :: es) = .ok edges := by
  have hrelax : ∀ (i id : Nat) (edges : List Edge), id < es.length + 2 →
      (edges.length = es.length + 2 ∧ ∀ e ∈ edges, InMatrix f b e.wordEntry) →
      ∃ edges', relaxE m mode (endIds es i) edges id = .ok edges' ∧
        (edges'.length = es.length + 2 ∧ ∀ e ∈ edges', InMatrix f b e.wordEntry) := by
    rintro i id edges hid ⟨hl, hmm⟩
    unfold relaxE
    have hget : edges[id]? = some edges[id] := by simp [hl, hid]
    rw [hget, orPanic_some, bind_ok]
    have hright := hmm edges[id] (List.getElem_mem _)
    have hcosts : ∃ costs, (endIds es i).mapM (leftCostE edges m mode edges[id].wordEntry) = .ok costs := by
      apply mapM_total
      intro x hx
      have hxl : x < edges.length := by
        rcases mem_endIds.mp hx with ⟨rfl, _⟩ | ⟨k, e, rfl, he, _⟩
        · omega
        · have := (List.getElem?_eq_some_iff.mp he).1; omega
      have hgx : edges[x]? = some edges[x] := by simp [hxl]
      obtain ⟨c, hc⟩ := cost_total hfb hb hlen (hmm edges[x] (List.getElem_mem _)) hright
      unfold leftCostE
      rw [hgx, orPanic_some, bind_ok, hc, bind_ok]
      exact ⟨_, rfl⟩
    obtain ⟨costs, hcosts⟩ := hcosts
    rw [hcosts, bind_ok]
    cases minByCost costs with
    | none => exact ⟨edges, rfl, hl, hmm⟩
    | some c =>
      refine ⟨_, rfl, by simp [hl], ?_⟩
      intro e he
      rcases List.mem_or_eq_of_mem_set he with he | rfl
      · exact hmm e he
      · exact hright
  have := foldlM_range_total (len + 1)
    (f := fun edges i => (startIds len es i).foldlM (init := edges) (relaxE m mode (endIds es i)))
    (fun _ edges => edges.length = es.length + 2 ∧ ∀ e ∈ edges, InMatrix f b e.wordEntry)
    (by
      intro i edges _ hP
      have := foldlM_total (f := relaxE m mode (endIds es i))
        (fun todo edges => (∀ x ∈ todo, x ∈ startIds len es i) ∧
          (edges.length = es.length + 2 ∧ ∀ e ∈ edges, InMatrix f b e.wordEntry))
        (by
          rintro x rest b' ⟨h1, h2⟩
          have hx : x < es.length + 2 := by
            have := mem_startIds.mp (h1 x (by simp))
            match x, this with
            | 1, _ => omega
            | k + 2, h =>
              simp only [posOf, Option.map_eq_some_iff] at h
              obtain ⟨e, he, _⟩ := h
              have := (List.getElem?_eq_some_iff.mp he).1
              omega
          obtain ⟨b'', hb1, hb2⟩ := hrelax i x b' hx h2
          exact ⟨b'', hb1, fun y hy => h1 y (by simp [hy]), hb2⟩)
        (startIds len es i) edges ⟨fun _ h => h, hP⟩
      obtain ⟨b', h1, _, h2⟩ := this
      exact ⟨b', h1, h2⟩)
    (Edge.default :: Edge.default :: es) ⟨by simp, by
      intro e he
      have hdef : InMatrix f b Edge.default.wordEntry := ⟨hf0, hb0⟩
      rcases List.mem_cons.mp he with rfl | he
      · exact hdef
      · rcases List.mem_cons.mp he with rfl | he
        · exact hdef
        · exact hm e he⟩
  obtain ⟨edges, h, _⟩ := this
  exact ⟨edges, h⟩

theorem sentenceOffsets_total {t : Tokenizer} (h : Consistent t) (text : Str) :
    ∃ r, sentenceOffsets t.env t.dictionary.costMatrix text = .ok r := by
  obtain ⟨f, b, hf0, hb0, hfb, hb, hlen, hd, hu, hc⟩ := h
  have he : EnvOk f b t.env := by
    refine ⟨hd, ?_, hc⟩
    intro u hu'
    simp only [Tokenizer.env, Option.map_eq_some_iff] at hu'
    obtain ⟨ud, hud, rfl⟩ := hu'
    exact hu ud hud
  obtain ⟨es, hg, hm⟩ := gen_total he text
  obtain ⟨edges, hcalc⟩ := calcE_total t.env.mode (len := blen text) hf0 hb0 hfb hb hlen hm
  obtain ⟨ue, hI⟩ := gen_inv hg
  have hbd := gen_bounds hg
  have hB := calcE_settled (fun e he => (hbd e he).1) (fun e he => (hbd e he).2.1) (fun e he => (hbd e he).2.2) hcalc
  have ht : ∃ o, Lattice.tokensOffset ⟨0, edges, [], []⟩ = .ok o := by
    rcases tokensOffset_spec hI hB ⟨0, edges, [], []⟩ rfl with ⟨ws, _, hw, _, _⟩ | ⟨_, hw⟩
    · exact ⟨_, hw⟩
    · exact ⟨_, hw⟩
  obtain ⟨o, ho⟩ := ht
  exact ⟨(es, edges, o), by unfold sentenceOffsets; rw [hg, bind_ok, hcalc, bind_ok, ho]; rfl⟩

theorem sentenceStep_total {t : Tokenizer} (h : Consistent t) {st : TokState} (hl : LatInv st.lattice)
    {s : Str} (hs : s ≠ []) : ∃ st', t.sentenceStep st s = .ok st' := by
  obtain ⟨r, hr⟩ := sentenceOffsets_total h s
  obtain ⟨ws, hres, hoff⟩ := sentenceOffsets_spec hr
  rw [sentenceStep_eq t hl hs, hr, bind_ok, hoff]
  rcases hres.surfaces with ⟨h1, h2⟩ | h1
  · exact ⟨_, emitTokens_spec (pre := []) (by simp [h1]) h2 _⟩
  · subst h1; exact ⟨_, rfl⟩

theorem tokenize_total {t : Tokenizer} (h : Consistent t) (text : Str) : ∃ toks, t.tokenize text = .ok toks := by
  unfold Tokenizer.tokenize
  have := foldlM_total (f := t.sentenceStep)
    (fun todo st => (∀ s ∈ todo, s ≠ []) ∧ LatInv st.lattice)
    (by
      rintro s rest st ⟨hne, hl⟩
      obtain ⟨st', hst⟩ := sentenceStep_total h hl (hne s (by simp))
      exact ⟨st', hst, fun x hx => hne x (by simp [hx]), (sentenceStep_spec hl (hne s (by simp)) hst).1⟩)
    (splitInclusive isDelimiter text) ⟨[], Lattice.default, 0, 0⟩ ⟨splitInclusive_ne _ _, latInv_default⟩
  obtain ⟨st, h1, _⟩ := this
  exact ⟨st.tokens, by rw [h1]; rfl⟩

end Verif.Model
