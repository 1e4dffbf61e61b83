import Verif.Proofs.LatticePath
import Verif.Proofs.Places
/-! Which of several equally cheap segmentations is returned. -/
namespace Verif.Model
open Verif.Spec

/-! ### Flags of entries -/

theorem deserialize_sys {bs : List UInt8} {b : Bool} {w : WordEntry} (h : WordEntry.deserialize bs b = .ok w) :
    w.wordId.sys = b := by
  unfold WordEntry.deserialize at h
  simp only [bind_eq_ok] at h
  obtain ⟨_, _, _, _, _, _, _, _, _, _, _, _, _, _, _, _, h⟩ := h
  simp at h
  subst h
  rfl

theorem entriesAt_sys {d : PrefixDict} {v : UInt32} {es : List WordEntry} (h : d.entriesAt v = .ok es)
    {w : WordEntry} (hw : w ∈ es) : w.wordId.sys = d.isSystem := by
  unfold PrefixDict.entriesAt at h
  rw [bind_eq_ok] at h
  obtain ⟨_, _, h⟩ := h
  obtain ⟨i, _, hf⟩ := mem_of_mapM_ok h hw
  rw [bind_eq_ok] at hf
  obtain ⟨_, _, hf⟩ := hf
  exact deserialize_sys hf

theorem inDict_sys {d : PrefixDict} {s : Str} {w : WordEntry} (h : InDict d s w) : w.wordId.sys = d.isSystem := by
  obtain ⟨v, es, _, hes, hw⟩ := findSurface_mem.mp h
  exact entriesAt_sys hes hw

/-! ### Ids are listed in increasing order -/

theorem idsWhere_sorted (p : Edge → Bool) (es : List Edge) : (idsWhere p es).Pairwise (· < ·) := by
  unfold idsWhere
  have h : ((es.zipIdx 2).map (·.2)).Pairwise (· < ·) := by
    have : (es.zipIdx 2).map (·.2) = List.range' 2 es.length := by
      rw [List.zipIdx_eq_zip_range', List.map_snd_zip]
      simp
    rw [this]
    exact List.pairwise_lt_range'
  exact h.sublist (List.filter_sublist.map _)

theorem endIds_sorted (es : List Edge) (p : Nat) : (endIds es p).Pairwise (· < ·) := by
  unfold endIds
  rw [List.pairwise_append]
  refine ⟨by split <;> simp, idsWhere_sorted _ _, ?_⟩
  intro a ha b hb
  obtain ⟨k, _, rfl, _⟩ := mem_idsWhere.mp hb
  split at ha
  · simp at ha; omega
  · simp at ha

/-! ### The tie rule -/

variable {env : LatticeEnv} {text : Str} {es edges : List Edge} {m : ConnMatrix} {ue : Option Nat}

theorem Origin.unique {e : Edge} {pre pre' rest rest' : Str} {t t' : EdgeType} {w w' : Word}
    (h : Origin env text es e pre rest t w) (h' : Origin env text es e pre' rest' t' w') :
    pre = pre' ∧ w.surface = w'.surface ∧ w.entry = w'.entry ∧ t = t' := by
  obtain ⟨ht, _, he, _, _, _, hw⟩ := h
  obtain ⟨ht', _, he', _, _, _, hw'⟩ := h'
  rw [he] at he'
  simp only [wordEdge, Edge.mk.injEq] at he'
  obtain ⟨h1, h2, _, _, h3, h4, _⟩ := he'
  obtain ⟨rfl, rfl⟩ := prefix_unique (ht.symm.trans ht') h3
  obtain ⟨post, hp⟩ := hw.wordAt.ne.2
  obtain ⟨post', hp'⟩ := hw'.wordAt.ne.2
  have := (prefix_unique (hp.trans hp'.symm) (by omega)).1
  exact ⟨rfl, this, h2, h1⟩

theorem Chain.unique {id : Nat} {pre pre' : Str} {ws ws' : List Word}
    (h : Chain env text es edges id pre ws) (h' : Chain env text es edges id pre' ws') :
    pre = pre' ∧ ws = ws' := by
  induction h generalizing pre' ws' with
  | bos => cases h'; exact ⟨rfl, rfl⟩
  | @step k e0 e pre rest t w l ws he0 ho he hl hend hch ih =>
    generalize hid : k + 2 = id at h'
    cases h' with
    | bos => omega
    | @step k' e0' e' pre' rest' t' w' l' ws' he0' ho' he' hl' hend' hc' =>
      have : k = k' := by omega
      subst this
      rw [he0] at he0'; cases he0'
      rw [he] at he'; cases he'
      rw [hl] at hl'; cases hl'
      obtain ⟨rfl, hs, hent, rfl⟩ := ho.unique ho'
      obtain ⟨_, rfl⟩ := ih hc'
      have : w = w' := by cases w; cases w'; simp_all
      subst this
      exact ⟨rfl, rfl⟩

/-- The edge for `v` ending at `stop` is listed before all edges for `v'` ending there. -/
def FirstChoice (env : LatticeEnv) (text : Str) (es : List Edge) (stop : Str) (v v' : Word) : Prop :=
  ∃ (k : Nat) (e : Edge) (pre rest : Str) (t : EdgeType), stop = pre ++ v.surface ∧ es[k]? = some e ∧ Origin env text es e pre rest t v ∧
    ∃ pre' : Str, stop = pre' ++ v'.surface ∧ Usable env text pre' v' ∧ reached es (blen pre') = true ∧
      ∀ (k' : Nat) (e' : Edge) (rest' : Str) (t' : EdgeType), es[k']? = some e' → Origin env text es e' pre' rest' t' v' → k ≤ k'

/-- The first-choice property at one right edge. -/
theorem tie_step (hI : ScanInv env text (blen text) es ue)
    (hB : Settled m env.mode (blen text) es edges) (hno : InRange env m text)
    {right : Edge} {p : Nat} (hbell : Bellman m env.mode es edges p right) (hp : reached es p = true)
    {l : Nat} (hl : right.leftEdge = some l) {pre : Str} {ws : List Word} {v : Word}
    (hch : Chain env text es edges l pre (ws ++ [v])) (hpre : blen pre = p)
    {ws' : List Word} {v' : Word} (hseg' : SegTo env text pre (ws' ++ [v']))
    (hcost : inner m env.mode .default (ws' ++ [v']) + conn m v'.entry right.wordEntry ≤
      inner m env.mode .default (ws ++ [v]) + conn m v.entry right.wordEntry) :
    FirstChoice env text es pre v v' := by
  obtain ⟨costs, c, l', left, cc, hc, hm, hl', hpc, hle, hleft, hcc, hceq⟩ := hbell.left hp
  rw [hl] at hl'
  cases hl'
  -- the chain of the chosen edge
  obtain ⟨pre2, ws2, hpre2, hch2⟩ := path_to hI hB _ _ hle
  obtain ⟨rfl, rfl⟩ := hch2.chain.unique hch
  obtain ⟨left', hleft', hlast, hcosteq⟩ := hch2.edge
  rw [hleft] at hleft'
  cases hleft'
  have hbd := hno _ _ hch2.seg (conn m left.wordEntry right.wordEntry) (conn_le _ _ _)
  have hcI : c.toInt = inner m env.mode .default (ws ++ [v]) + conn m left.wordEntry right.wordEntry := by
    have hcc' := conn_of_cost hcc
    have : c = Int32.ofInt (inner m env.mode .default (ws ++ [v]) + conn m left.wordEntry right.wordEntry) := by
      rw [hceq, Int32.ofInt_add, ← hcosteq, ← hcc']; ac_rfl
    rw [this, Int32.toInt_ofInt_of_le hbd.1 hbd.2]
  rw [lastEntry_snoc] at hlast
  rw [hlast] at hcI
  -- the other segmentation, decomposed
  obtain ⟨hseg1, hu'⟩ : ∃ pre1, SegTo env text pre1 ws' ∧ Usable env text pre1 v' ∧ pre2 = pre1 ++ v'.surface := by
    generalize hx : ws' ++ [v'] = x at hseg'
    cases hseg' with
    | nil => simp at hx
    | snoc h1 h2 =>
      obtain ⟨rfl, hw⟩ := List.append_inj' hx rfl
      simp only [List.cons.injEq, and_true] at hw
      subst hw
      exact ⟨_, h1, h2, rfl⟩
  obtain ⟨hseg1, hu1, hpp⟩ := hu'
  rename_i pre1
  have hreach1 := reached_of_segTo hI hseg1
  -- any edge for the other word comes no earlier than the chosen one
  have hkey : ∀ (k' : Nat) (e' : Edge) (rest' : Str) (t' : EdgeType), es[k']? = some e' → Origin env text es e' pre1 rest' t' v' → l ≤ k' + 2 := by
    intro k' e' rest' t' hk' ho'
    obtain ⟨e2, he2, hent2, hle2⟩ := optimal_edge hI hB hno (optimal hI hB hno hseg1) hk' ho'
    have hid' : k' + 2 ∈ endIds es p := by
      rw [mem_endIds]
      refine .inr ⟨k', _, rfl, hk', ?_⟩
      rw [← hpre, hpp, ho'.2.2.1]; simp [wordEdge]
    -- its cost is not larger than the least
    obtain ⟨y, hy, hf⟩ := mem_mapM_ok hc hid'
    unfold leftCostE at hf
    rw [he2] at hf
    simp only [bind_eq_ok, orPanic_some, bind_ok] at hf
    obtain ⟨cc2, hcc2, hf⟩ := hf
    simp at hf
    obtain ⟨pre3, ws3, hpre3, hch3⟩ := path_to hI hB _ _ hid'
    obtain ⟨e3, he3, hlast3, hcost3⟩ := hch3.edge
    rw [he2] at he3
    cases he3
    have hb0 := hno _ _ hch3.seg 0 (by simp)
    have hb3 := hno _ _ hch3.seg (conn m e2.wordEntry right.wordEntry) (conn_le _ _ _)
    have hy1 : y.1.toInt = inner m env.mode .default ws3 + conn m e2.wordEntry right.wordEntry := by
      have hcc' := conn_of_cost hcc2
      have e1 : y.1 = Int32.ofInt (inner m env.mode .default ws3 + conn m e2.wordEntry right.wordEntry) := by
        rw [← hf, Int32.ofInt_add, ← hcost3, ← hcc']; simp only; ac_rfl
      rw [e1, Int32.toInt_ofInt_of_le hb3.1 hb3.2]
    rw [hcost3, Int32.toInt_ofInt_of_le (by omega) (by omega)] at hle2
    rw [hent2] at hy1
    have hyle : y.1.toInt ≤ c.toInt := by omega
    -- so it is not before the first least one
    obtain ⟨a, b, hab, ha, hb⟩ := minByCost_spec hm
    rw [mapM_ok_iff, hab] at hc
    obtain ⟨ids1, ids2, h1, h2, hsplit⟩ : ∃ ids1 ids2, List.Forall₂ (fun x y => leftCostE edges m env.mode right.wordEntry x = .ok y) ids1 a ∧
        List.Forall₂ (fun x y => leftCostE edges m env.mode right.wordEntry x = .ok y) ids2 ((c, l) :: b) ∧ endIds es p = ids1 ++ ids2 := by
      refine ⟨(endIds es p).take a.length, (endIds es p).drop a.length, ?_, ?_, (List.take_append_drop _ _).symm⟩
      · have := List.forall₂_take a.length hc
        simpa using this
      · have := List.forall₂_drop a.length hc
        simpa using this
    cases h2 with
    | @cons x _ ids3 _ hx h3 =>
      have hxl : x = l := by
        unfold leftCostE at hx
        simp only [bind_eq_ok] at hx
        obtain ⟨_, _, _, _, hx⟩ := hx
        simp at hx
        exact hx.2
      subst hxl
      rw [hsplit] at hid'
      have hsorted := endIds_sorted es p
      rw [hsplit, List.pairwise_append] at hsorted
      rcases List.mem_append.mp hid' with hin | hin
      · -- in the strictly dearer part: impossible
        exfalso
        have : ∃ z ∈ a, leftCostE edges m env.mode right.wordEntry (k' + 2) = .ok z := by
          clear hsplit hsorted hid' hc hab
          induction h1 with
          | nil => simp at hin
          | cons hxy _ ih =>
            rcases List.mem_cons.mp hin with rfl | hin
            · exact ⟨_, by simp, hxy⟩
            · obtain ⟨z, hz, hz'⟩ := ih (fun y hy => ha y (by simp [hy])) hin
              exact ⟨z, by simp [hz], hz'⟩
        obtain ⟨z, hz, hz'⟩ := this
        have hlt := ha z hz
        have hzy : z = y := by
          unfold leftCostE at hz'
          rw [he2] at hz'
          simp only [orPanic_some, bind_ok, hcc2, pure_eq_ok, Except.ok.injEq] at hz'
          rw [← hz', ← hf]
        rw [hzy, Int32.lt_iff_toInt_lt] at hlt
        simp only at hlt
        omega
      · rcases List.mem_cons.mp hin with h | h
        · omega
        · have := (List.pairwise_cons.mp hsorted.2.1).1 _ h
          omega
  generalize hx : ws ++ [v] = x at hch
  cases hch with
  | bos => simp at hx
  | @step k e0 e pre0 rest0 t0 w0 l0 ws0 he0 ho0 he hl0 hend hch0 =>
    obtain ⟨rfl, hw⟩ := List.append_inj' hx rfl
    simp only [List.cons.injEq, and_true] at hw
    subst hw
    exact ⟨k, e0, pre0, rest0, t0, rfl, he0, ho0, pre1, hpp, hu1, hreach1, fun k' e' rest' t' hk' ho' => by have := hkey k' e' rest' t' hk' ho'; omega⟩

/-- The tie rule inside a chain: every word but the last was the first choice for the next word. -/
theorem chain_ties (hI : ScanInv env text (blen text) es ue)
    (hB : Settled m env.mode (blen text) es edges) (hno : InRange env m text)
    {id : Nat} {pre : Str} {ws : List Word} (hch : Chain env text es edges id pre ws) :
    ∀ a v x b, ws = a ++ v :: x :: b → ∀ a' v' pre', SegTo env text pre' (a' ++ [v']) →
      pre' = surfaces (a ++ [v]) →
      inner m env.mode .default (a' ++ [v']) + conn m v'.entry x.entry ≤
        inner m env.mode .default (a ++ [v]) + conn m v.entry x.entry → FirstChoice env text es pre' v v' := by
  induction hch with
  | bos => intro a v x b h; simp at h
  | @step k e0 e pre rest t w l ws he0 ho he hl hend hch ih =>
    intro a v x b hws a' v' pre' hseg hpre' hcost
    rcases List.eq_nil_or_concat b with rfl | ⟨b', y, rfl⟩
    · have hws' : ws ++ [w] = (a ++ [v]) ++ [x] := by rw [hws]; simp
      obtain ⟨rfl, hw⟩ := List.append_inj' hws' rfl
      simp only [List.cons.injEq, and_true] at hw
      subst hw
      obtain ⟨e', he', hsame⟩ := hB.get he0
      rw [he] at he'
      cases he'
      have hb := ho.bounds
      have hpos : posOf (blen text) es (k + 2) = some (blen pre) := by simp [posOf, he0, hb.1]
      have hbell := hB.bellman (k + 2) _ hpos e he
      have hentry : e.wordEntry = w.entry := by rw [hsame.2.1, ho.2.2.1]; rfl
      obtain ⟨pre2, ws2, hpre2, hch2⟩ := path_to hI hB _ _ hend
      obtain ⟨rfl, rfl⟩ := hch2.chain.unique hch
      rw [hch2.seg.surfaces_eq] at hpre'
      subst hpre'
      rw [← hentry] at hcost
      exact tie_step hI hB hno hbell ho.2.1 hl hch rfl hseg hcost
    · have hws' : ws ++ [w] = (a ++ v :: x :: b') ++ [y] := by rw [hws]; simp
      obtain ⟨rfl, _⟩ := List.append_inj' hws' rfl
      exact ih a v x b' rfl a' v' pre' hseg hpre' hcost

theorem segFrom_split {pre : Str} {a b : List Word} :
    SegFrom env text pre (a ++ b) → SegFrom env text (pre ++ surfaces a) b := by
  induction a generalizing pre with
  | nil => intro h; simpa using h
  | cons w a ih =>
    intro h
    have := ih h.2
    simpa using this

theorem segTo_of_segFrom_append {b : List Word} : ∀ {a vs : List Word} {pre : Str}, SegTo env text pre vs →
    SegFrom env text pre (a ++ b) → SegTo env text (pre ++ surfaces a) (vs ++ a)
  | [], vs, pre, h, _ => by simpa using h
  | w :: a, vs, pre, h, h' => by
    have := segTo_of_segFrom_append (a := a) (.snoc h h'.1) h'.2
    simpa using this

theorem surfaces_of_segmentation {ws : List Word} (h : Segmentation env text ws) : surfaces ws = text := by
  rw [segmentation_iff] at h
  exact h.surfaces_eq

/-- The words of the returned segmentation are first choices. -/
theorem firstChoices (hI : ScanInv env text (blen text) es ue)
    (hB : Settled m env.mode (blen text) es edges) (hno : InRange env m text)
    {eos : Edge} {lf : Nat} {ws : List Word} (heos : edges[1]? = some eos) (hlf : eos.leftEdge = some lf)
    (hle : lf ∈ endIds es (blen text)) (hch : Chain env text es edges lf text ws) :
    ∀ a v b a' v', ws = a ++ v :: b → Segmentation env text (a' ++ v' :: b) → cost m env.mode (a' ++ v' :: b) = cost m env.mode ws →
      FirstChoice env text es (surfaces (a ++ [v])) v v' := by
  intro a v b a' v' hws hseg hcost
  have hsame : SameWord eos Edge.default := by
    obtain ⟨e0, h0, hs⟩ := hB.same 1 eos heos
    simp at h0
    subst h0
    exact hs
  have hee : eos.wordEntry = WordEntry.default := by rw [hsame.2.1]; rfl
  obtain ⟨pre2, ws2, hpre2, hch2⟩ := path_to hI hB _ _ hle
  obtain ⟨rfl, rfl⟩ := hch2.chain.unique hch
  -- the common prefix text
  have hfull : surfaces (a ++ [v]) ++ surfaces b = surfaces (a' ++ [v']) ++ surfaces b := by
    have h1 := hch2.seg.surfaces_eq
    have h2 := surfaces_of_segmentation hseg
    rw [← surfaces_append, ← surfaces_append]
    simp only [List.append_assoc, List.singleton_append]
    rw [← hws, h1, h2]
  have hpre : surfaces (a ++ [v]) = surfaces (a' ++ [v']) := List.append_cancel_right hfull
  have hseg' : SegTo env pre2 (surfaces (a' ++ [v'])) (a' ++ [v']) := by
    have h : SegFrom env pre2 [] ((a' ++ [v']) ++ b) := by simpa [Segmentation] using hseg
    have := segTo_of_segFrom_append (vs := []) .nil h
    simpa using this
  -- costs of the parts
  have hc1 : ∀ (x : List Word) (y : Word), cost m env.mode (x ++ y :: b) =
      inner m env.mode .default (x ++ [y]) + costFrom m env.mode y.entry b := by
    intro x y
    have := costFrom_append m env.mode .default (x ++ [y]) b
    rw [lastEntry_snoc, List.append_assoc, List.singleton_append] at this
    exact this
  rw [hws, hc1, hc1] at hcost
  cases b with
  | nil =>
    have hbell := hB.bellman 1 _ rfl eos heos
    have hreach := reached_of_segTo hI hch2.seg
    have hws' : ws2 = a ++ [v] := hws
    subst hws'
    rw [← hpre, hch2.seg.surfaces_eq] at hseg'
    rw [hch2.seg.surfaces_eq]
    refine tie_step hI hB hno hbell hreach hlf hch rfl hseg' ?_
    rw [hee]
    simp only [costFrom] at hcost
    omega
  | cons x b =>
    rw [← hpre] at hseg'
    refine chain_ties hI hB hno hch a v x b hws a' v' _ hseg' rfl ?_
    simp only [costFrom] at hcost
    omega

theorem _root_.Verif.Spec.Slot.le_refl (p : Slot) : p.le p := by
  cases p <;> simp [Slot.le]

theorem EntriesFor.unique {s : Str} {a b : List WordEntry} (h : EntriesFor env s a) (h' : EntriesFor env s b) : a = b := by
  obtain ⟨us, ss, hu, hs, rfl⟩ := h
  obtain ⟨us', ss', hu', hs', rfl⟩ := h'
  rw [hs] at hs'; cases hs'
  rcases hu with ⟨h1, rfl⟩ | ⟨u, h1, h2⟩ <;> rcases hu' with ⟨h1', rfl⟩ | ⟨u', h1', h2'⟩
  · rfl
  · rw [h1] at h1'; cases h1'
  · rw [h1] at h1'; cases h1'
  · rw [h1] at h1'; cases h1'
    rw [h2] at h2'; cases h2'; rfl

/-- A first choice is the word to keep. -/
theorem FirstChoice.keep (hI : ScanInv env text (blen text) es ue) {ts : List (Edge × Slot)} (hT : Tagged env text (blen text) es ts)
    {pre : Str} {v v' : Word} (h : FirstChoice env text es (pre ++ v.surface) v v') : ToKeep env text pre v v' ∧ Preferred env v v' := by
  obtain ⟨k, e, pre0, rest, t, hstop, he, ho, pre', hstop', hu, hr', hfirst⟩ := h
  have hpre0 : pre = pre0 := List.append_cancel_right hstop
  subst hpre0
  obtain ⟨hne', post', hpost'⟩ := hu.split
  obtain ⟨rest', reach', latest', ht', hs', hw'⟩ := hu
  have hlt' : blen pre' < blen text := by
    rw [hpost']; have := blen_pos hne'; simp; omega
  -- an edge for the other word comes later
  have hk : ∀ t', TypedWordAt env rest' (blen pre') latest' t' v' → ∀ k' : Nat, es[k']? = some (wordEdge t' v'.entry (blen pre') v'.surface) → k ≤ k' := by
    intro t' htw k' hk'
    exact hfirst k' _ rest' t' hk' ⟨ht', hr', rfl, reach', latest', hs', htw⟩
  have hle : blen pre ≤ blen pre' := by
    obtain ⟨t', htw⟩ : ∃ t', TypedWordAt env rest' (blen pre') latest' t' v' := by
      rcases hw' with h | ⟨h1, h2⟩
      · exact ⟨_, .inl ⟨rfl, h⟩⟩
      · exact ⟨_, .inr ⟨rfl, h1, h2⟩⟩
    have hmem := hI.complete _ _ _ _ _ hlt' ⟨ht', hr', rfl, reach', latest', hs', htw⟩
    obtain ⟨k', hk'⟩ := List.getElem?_of_mem hmem
    have hkk := hk t' htw k' hk'
    have hst : e.startIndex = blen pre := ho.bounds.1
    rcases Nat.eq_or_lt_of_le hkk with heq | hlt
    · subst heq
      rw [he] at hk'
      cases hk'
      simp only [wordEdge] at hst
      omega
    · have := List.pairwise_iff_getElem.mp hI.sorted k k' (List.getElem?_eq_some_iff.mp he).1 (List.getElem?_eq_some_iff.mp hk').1 hlt
      rw [(List.getElem?_eq_some_iff.mp he).2, (List.getElem?_eq_some_iff.mp hk').2, hst] at this
      exact this
  have hlen : blen pre + blen v.surface = blen pre' + blen v'.surface := by rw [← blen_append, ← blen_append, hstop']
  rcases Nat.eq_or_lt_of_le hle with heq | hlt
  · obtain ⟨rfl, hsurf⟩ := prefix_unique hstop' heq
    obtain ⟨ht, hr, heo, reach, latest, hs, hw⟩ := ho
    have hrr : rest' = rest := List.append_cancel_left (ht'.symm.trans ht)
    subst hrr
    obtain ⟨rfl, -⟩ := hs.unique hs'
    -- the place of the chosen edge
    have hkts : ∃ p, ts[k]? = some (e, p) := by
      rw [← hT.edges, List.getElem?_map] at he
      cases hx : ts[k]? with
      | none => rw [hx] at he; cases he
      | some x =>
        rw [hx] at he
        simp only [Option.map_some, Option.some.injEq] at he
        exact ⟨x.2, by rw [← he]⟩
    obtain ⟨p, hp⟩ := hkts
    have hwp : WrittenAt env rest' (blen pre) latest v p := by
      obtain ⟨pre2, rest2, reach2, latest2, w2, h1, h2, h3, h4⟩ := hT.sound _ (List.mem_of_getElem? hp)
      simp only [heo] at h4
      simp only [wordEdge, Edge.mk.injEq] at h4
      obtain ⟨-, h5, -, -, h6, h7, -⟩ := h4
      obtain ⟨rfl, rfl⟩ := prefix_unique (ht.symm.trans h1) h6
      obtain ⟨rfl, -⟩ := h2.unique hs
      obtain ⟨post, hpost⟩ := hw.wordAt.ne.2
      obtain ⟨post2, hpost2⟩ := (WrittenAt.typed h3).wordAt.ne.2
      have h8 := (prefix_unique (hpost.trans hpost2.symm) (by omega)).1
      have : v = w2 := by cases v; cases w2; simp_all
      rw [this]
      exact h3
    have hall : ∀ p', WrittenAt env rest' (blen pre) latest v' p' → p.le p' := by
      intro p' hp'
      have hm := hT.complete pre rest' reach latest v' p' hlt' ht hr hs hp'
      obtain ⟨k', hk'⟩ := List.getElem?_of_mem hm
      have he' : es[k']? = some (wordEdge p'.type v'.entry (blen pre) v'.surface) := by rw [← hT.edges, List.getElem?_map, hk']; rfl
      have hkk := hk _ (WrittenAt.typed hp') k' he'
      rcases Nat.eq_or_lt_of_le hkk with heq | hlt
      · subst heq
        rw [hp] at hk'
        cases hk'
        exact p.le_refl
      · have := (List.pairwise_iff_getElem.mp hT.sorted k k' (List.getElem?_eq_some_iff.mp hp).1 (List.getElem?_eq_some_iff.mp hk').1 hlt).2
        rw [(List.getElem?_eq_some_iff.mp hp).2, (List.getElem?_eq_some_iff.mp hk').2, heo] at this
        exact this (by simp [wordEdge]) (by simp [wordEdge, hsurf])
    obtain ⟨post, hpost⟩ := hw'.ne.2
    obtain ⟨all, hlist⟩ := hT.listed pre rest' v'.surface hlt' ht hr hne' ⟨post, hpost⟩
    have hknown : ∀ i : Nat, all[i]? = some v'.entry → ∃ j, j ≤ i ∧ all[j]? = some v.entry := by
      intro i hi
      have hp := hall (.known i) ⟨hne', ⟨post, hpost⟩, all, hlist, hi⟩
      cases p with
      | known j =>
        obtain ⟨-, -, es', hes', hj⟩ := hwp
        rw [hsurf] at hes'
        rw [EntriesFor.unique hes' hlist] at hj
        exact ⟨j, hp, hj⟩
      | unknown r j => exact absurd hp (by simp [Slot.le])
    refine ⟨.inr ⟨hsurf.symm, rest', reach, latest, ht, hs, p, hwp, hall⟩, .inr ⟨hsurf.symm, ?_, ?_⟩⟩
    · rintro ⟨u, hu, us, hus, hm⟩
      obtain ⟨us', ss, hus', hss, rfl⟩ := hlist
      rcases hus' with ⟨h0, -⟩ | ⟨u', hu', hus'⟩
      · rw [hu] at h0; cases h0
      · rw [hu] at hu'; cases hu'
        rw [hus] at hus'; cases hus'
        obtain ⟨i, hi⟩ := List.getElem?_of_mem hm
        have hil := (List.getElem?_eq_some_iff.mp hi).1
        obtain ⟨j, hj, hv⟩ := hknown i (by rw [List.getElem?_append_left hil]; exact hi)
        rw [List.getElem?_append_left (by omega)] at hv
        refine ⟨u, hu, us, ?_, List.mem_of_getElem? hv⟩
        rw [hsurf]; exact hus
    · intro hany
      have hmem : v'.entry ∈ all := by
        obtain ⟨us', ss, hus', hss, rfl⟩ := hlist
        rcases hany with ⟨u, hu, us, hus, hm⟩ | ⟨ss', hss', hm⟩
        · rcases hus' with ⟨h0, -⟩ | ⟨u', hu', hus'⟩
          · rw [hu] at h0; cases h0
          · rw [hu] at hu'; cases hu'
            rw [hus] at hus'; cases hus'
            exact List.mem_append_left _ hm
        · rw [hss] at hss'; cases hss'
          exact List.mem_append_right _ hm
      obtain ⟨i, hi⟩ := List.getElem?_of_mem hmem
      obtain ⟨j, -, hv⟩ := hknown i hi
      have hmem' := List.mem_of_getElem? hv
      obtain ⟨us', ss, hus', hss, rfl⟩ := hlist
      rw [← hsurf] at hus' hss
      rcases List.mem_append.mp hmem' with hm | hm
      · rcases hus' with ⟨-, rfl⟩ | ⟨u', hu', hus'⟩
        · cases hm
        · exact .inl ⟨u', hu', us', hus', hm⟩
      · exact .inr ⟨ss, hss, hm⟩
  · exact ⟨.inl (by omega), .inl (by omega)⟩

/-- The returned segmentation obeys the rules for ties. -/
theorem tieRules (hI : ScanInv env text (blen text) es ue) (hg : gen env text = .ok es)
    (hB : Settled m env.mode (blen text) es edges) (hno : InRange env m text)
    {eos : Edge} {lf : Nat} {ws : List Word} (heos : edges[1]? = some eos) (hlf : eos.leftEdge = some lf)
    (hle : lf ∈ endIds es (blen text)) (hch : Chain env text es edges lf text ws) : KeepRule env m text ws ∧ TieRule env m text ws := by
  obtain ⟨ts, hT⟩ := gen_tagged hg
  have key : ∀ a v b a' v', ws = a ++ v :: b → Segmentation env text (a' ++ v' :: b) → cost m env.mode (a' ++ v' :: b) = cost m env.mode ws →
      ToKeep env text (surfaces a) v v' ∧ Preferred env v v' := by
    intro a v b a' v' h1 h2 h3
    have := firstChoices hI hB hno heos hlf hle hch a v b a' v' h1 h2 h3
    rw [surfaces_append, show surfaces [v] = v.surface by simp] at this
    exact this.keep hI hT
  exact ⟨fun a v b a' v' h1 h2 h3 => (key a v b a' v' h1 h2 h3).1, fun a v b a' v' h1 h2 h3 => (key a v b a' v' h1 h2 h3).2⟩

end Verif.Model
