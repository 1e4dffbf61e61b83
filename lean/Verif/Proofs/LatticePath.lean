import Verif.Proofs.Segments
import Verif.Proofs.LatticeCost
/-! Following the back pointers yields a segmentation, and it is optimal. -/
namespace Verif.Model
open Verif.Spec

/-! ### The first minimum -/

theorem foldl_min_spec (xs : List (Int32 × Nat)) (x : Int32 × Nat) :
    ∃ a b, x :: xs = a ++ (xs.foldl (fun best y => if y.1 < best.1 then y else best) x) :: b ∧
      (∀ y ∈ a, (xs.foldl (fun best y => if y.1 < best.1 then y else best) x).1 < y.1) ∧
      (∀ y ∈ b, ¬ y.1 < (xs.foldl (fun best y => if y.1 < best.1 then y else best) x).1) := by
  induction xs generalizing x with
  | nil => exact ⟨[], [], by simp⟩
  | cons y xs ih =>
    rw [List.foldl_cons]
    by_cases h : y.1 < x.1
    · rw [if_pos h]
      obtain ⟨a, b, hab, ha, hb⟩ := ih y
      refine ⟨x :: a, b, by rw [List.cons_append, ← hab], ?_, hb⟩
      intro z hz
      rcases List.mem_cons.mp hz with rfl | hz
      · cases a with
        | nil =>
          simp only [List.nil_append, List.cons.injEq] at hab
          rw [← hab.1]; exact h
        | cons c a =>
          simp only [List.cons_append, List.cons.injEq] at hab
          have := ha c (by simp)
          rw [← hab.1] at this
          rw [Int32.lt_iff_toInt_lt] at *
          omega
      · exact ha z hz
    · rw [if_neg h]
      obtain ⟨a, b, hab, ha, hb⟩ := ih x
      cases a with
      | nil =>
        simp only [List.nil_append, List.cons.injEq] at hab
        refine ⟨[], y :: b, by rw [List.nil_append, ← hab.1, ← hab.2], by simp, ?_⟩
        intro z hz
        rcases List.mem_cons.mp hz with rfl | hz
        · rw [← hab.1]; exact h
        · exact hb z hz
      | cons c a =>
        simp only [List.cons_append, List.cons.injEq] at hab
        obtain ⟨rfl, hab⟩ := hab
        refine ⟨x :: y :: a, b, by rw [List.cons_append, List.cons_append, ← hab], ?_, hb⟩
        intro z hz
        rcases List.mem_cons.mp hz with rfl | hz
        · exact ha z (by simp)
        · rcases List.mem_cons.mp hz with rfl | hz
          · have := ha x (by simp)
            rw [Int32.lt_iff_toInt_lt] at *
            omega
          · exact ha z (by simp [hz])

/-- `min_by_key` returns the first of the least elements. -/
theorem minByCost_spec {xs : List (Int32 × Nat)} {r : Int32 × Nat} (h : minByCost xs = some r) :
    ∃ a b, xs = a ++ r :: b ∧ (∀ y ∈ a, r.1 < y.1) ∧ (∀ y ∈ b, ¬ y.1 < r.1) := by
  cases xs with
  | nil => simp [minByCost] at h
  | cons x xs =>
    simp only [minByCost, Option.some.injEq] at h
    subst h
    exact foldl_min_spec xs x

theorem minByCost_le {xs : List (Int32 × Nat)} {r : Int32 × Nat} (h : minByCost xs = some r) :
    r ∈ xs ∧ ∀ y ∈ xs, r.1.toInt ≤ y.1.toInt := by
  obtain ⟨a, b, rfl, ha, hb⟩ := minByCost_spec h
  refine ⟨by simp, ?_⟩
  intro y hy
  rcases List.mem_append.mp hy with hy | hy
  · have := ha y hy; rw [Int32.lt_iff_toInt_lt] at this; omega
  · rcases List.mem_cons.mp hy with rfl | hy
    · exact Int.le_refl _
    · have := hb y hy; rw [Int32.lt_iff_toInt_lt] at this; omega

/-! ### Penalties -/

theorem isKanji_eq : isKanji = isKanjiChar := by
  funext c
  rw [Bool.eq_iff_iff]
  simp only [isKanji, isKanjiChar, Bool.and_eq_true, decide_eq_true_eq, Char.le_def, UInt32.le_iff_toNat_le, Char.toNat]
  exact Iff.rfl

theorem penaltyCost_word {mode : Mode} {t : EdgeType} {w : WordEntry} {start : Nat} {s : Str} {e : Edge}
    (h : SameWord e (wordEdge t w start s)) : mode.penaltyCost e = Int32.ofInt (penalty mode s) := by
  obtain ⟨_, _, h1, h2, h3⟩ := h
  cases mode with
  | normal => rfl
  | decompose p =>
    have hn : e.numChars = charCount s := by
      simp [Edge.numChars, h1, h2, wordEdge, charCount]
    have hk : e.kanjiOnly = s.all isKanjiChar := by rw [h3, ← isKanji_eq]; rfl
    simp only [Mode.penaltyCost, Penalty.penalty, penalty, hn, hk]
    by_cases c1 : charCount s ≤ p.kanjiThreshold
    · rw [if_pos c1, if_pos c1]; rfl
    · rw [if_neg c1, if_neg c1]
      by_cases c2 : s.all isKanjiChar = true
      · rw [if_pos c2, if_pos c2, Int32.ofInt_mul, Int32.ofInt_toInt, Int32.ofInt_eq_ofNat]
      · rw [if_neg c2, if_neg c2]
        by_cases c3 : p.otherThreshold < charCount s
        · rw [if_pos c3, if_pos c3, Int32.ofInt_mul, Int32.ofInt_toInt, Int32.ofInt_eq_ofNat]
        · rw [if_neg c3, if_neg c3]; rfl

theorem penaltyCost_default (mode : Mode) : mode.penaltyCost Edge.default = 0 := by
  cases mode with
  | normal => rfl
  | decompose p => simp [Mode.penaltyCost, Penalty.penalty, Edge.numChars, Edge.default]

theorem conn_of_cost {m : ConnMatrix} {a b : WordEntry} {c : Int32}
    (h : m.cost a.rightId.toUInt32 b.leftId.toUInt32 = .ok c) : c = Int32.ofInt (conn m a b) := by
  unfold conn
  rw [h]
  simp

/-! ### Back pointers -/

variable {env : LatticeEnv} {text : Str} {es edges : List Edge} {m : ConnMatrix} {ue : Option Nat}

theorem Settled.get {mode : Mode} {len : Nat} (hB : Settled m mode len es edges) {k : Nat} {e0 : Edge}
    (h : es[k]? = some e0) : ∃ e, edges[k + 2]? = some e ∧ SameWord e e0 := by
  have hlt : k + 2 < edges.length := by
    rw [hB.length]
    have := (List.getElem?_eq_some_iff.mp h).1
    omega
  refine ⟨edges[k + 2], by simp [hlt], ?_⟩
  obtain ⟨e0', h0, hs⟩ := hB.same (k + 2) edges[k + 2] (by simp [hlt])
  simp only [List.getElem?_cons_succ] at h0
  rw [h] at h0
  cases h0
  exact hs

/-- A reached position has a first best left edge. -/
theorem Bellman.left {mode : Mode} {p : Nat} {e : Edge} (h : Bellman m mode es edges p e)
    (hr : reached es p = true) :
    ∃ costs c l left cc, (endIds es p).mapM (leftCostE edges m mode e.wordEntry) = .ok costs ∧
      minByCost costs = some (c, l) ∧ e.leftEdge = some l ∧
      e.pathCost = e.wordEntry.wordCost.toInt32 + c ∧
      l ∈ endIds es p ∧ edges[l]? = some left ∧
      m.cost left.wordEntry.rightId.toUInt32 e.wordEntry.leftId.toUInt32 = .ok cc ∧
      c = left.pathCost + cc + mode.penaltyCost left := by
  unfold Bellman at h
  rw [if_pos hr] at h
  obtain ⟨costs, c, l, hc, hm, hl, hp⟩ := h
  have hmem := (minByCost_le hm).1
  obtain ⟨x, hx, hf⟩ := mem_of_mapM_ok hc hmem
  unfold leftCostE at hf
  simp only [bind_eq_ok, orPanic_eq_ok] at hf
  obtain ⟨left, hleft, cc, hcc, hf⟩ := hf
  simp at hf
  obtain ⟨rfl, rfl⟩ := hf
  exact ⟨costs, _, x, left, cc, hc, hm, hl, hp, hx, hleft, hcc, rfl⟩

/-- The back pointers from an edge spell a list of words. -/
inductive Chain (env : LatticeEnv) (text : Str) (es edges : List Edge) : Nat → Str → List Word → Prop where
  | bos : Chain env text es edges 0 [] []
  | step {k : Nat} {e0 e : Edge} {pre rest : Str} {t : EdgeType} {w : Word} {l : Nat} {ws : List Word} :
      es[k]? = some e0 → Origin env text es e0 pre rest t w → edges[k + 2]? = some e → e.leftEdge = some l →
      l ∈ endIds es (blen pre) → Chain env text es edges l pre ws →
      Chain env text es edges (k + 2) (pre ++ w.surface) (ws ++ [w])

/-- Data about a word edge and the segmentation its back pointers spell. -/
structure ChainTo (env : LatticeEnv) (text : Str) (es edges : List Edge) (m : ConnMatrix) (id : Nat)
    (pre : Str) (ws : List Word) : Prop where
  seg : SegTo env text pre ws
  chain : Chain env text es edges id pre ws
  edge : ∃ e, edges[id]? = some e ∧ e.wordEntry = lastEntry .default ws ∧
    e.pathCost + env.mode.penaltyCost e = Int32.ofInt (inner m env.mode .default ws)
  follow : ∀ (l : Lattice) (fuel : Nat), l.edges = edges → id + 1 ≤ fuel →
    l.followLeft fuel id = .ok (offsetsFrom 0 ws).reverse

theorem usable_of_origin {e : Edge} {pre rest : Str} {t : EdgeType} {w : Word}
    (h : Origin env text es e pre rest t w) : Usable env text pre w := by
  obtain ⟨ht, _, _, reach, latest, hs, hw⟩ := h
  exact ⟨rest, reach, latest, ht, hs, hw.wordAt⟩

theorem id_lt_of_end (hI : ScanInv env text (blen text) es ue) {k l : Nat} {e : Edge}
    (he : es[k]? = some e) (hl : l ∈ endIds es e.startIndex) : l < k + 2 := by
  rcases mem_endIds.mp hl with ⟨rfl, _⟩ | ⟨k', e', rfl, he', hs⟩
  · omega
  · by_contra hge
    have hlt : k < k' ∨ k = k' := by omega
    obtain ⟨_, _, _, _, _, ho⟩ := hI.sound e' (List.mem_of_getElem? he')
    have hb := ho.bounds
    rcases hlt with hlt | rfl
    · have hp := List.pairwise_iff_getElem.mp hI.sorted k k'
        (List.getElem?_eq_some_iff.mp he).1 (List.getElem?_eq_some_iff.mp he').1 hlt
      rw [(List.getElem?_eq_some_iff.mp he).2, (List.getElem?_eq_some_iff.mp he').2] at hp
      omega
    · rw [he] at he'; cases he'; omega

theorem path_to (hI : ScanInv env text (blen text) es ue) (hB : Settled m env.mode (blen text) es edges) :
    ∀ p id, id ∈ endIds es p → ∃ pre ws, blen pre = p ∧ ChainTo env text es edges m id pre ws := by
  intro p
  induction p using Nat.strongRecOn with
  | ind p ih =>
    intro id hid
    rcases mem_endIds.mp hid with ⟨rfl, rfl⟩ | ⟨k, e0, rfl, he0, hstop⟩
    · refine ⟨[], [], rfl, .nil, .bos, ⟨_, hB.bos, rfl, ?_⟩, ?_⟩
      · rw [penaltyCost_default]; rfl
      · intro l fuel hl hf
        cases fuel with
        | zero => omega
        | succ fuel =>
          simp only [Lattice.followLeft, hl, hB.bos, orPanic_some, bind_ok]
          rfl
    · obtain ⟨_, pre, rest, t, w, ho⟩ := hI.sound e0 (List.mem_of_getElem? he0)
      obtain ⟨hb1, hb2, hb3, _⟩ := ho.bounds
      obtain ⟨e, he, hsame⟩ := hB.get he0
      have hpos : posOf (blen text) es (k + 2) = some (blen pre) := by
        simp [posOf, he0, hb1]
      have hbell := hB.bellman (k + 2) _ hpos e he
      obtain ⟨costs, c, l, left, cc, hc, hm, hl, hp, hle, hleft, hcc, hceq⟩ := hbell.left ho.2.1
      obtain ⟨pre', ws, hpre', hch⟩ := ih (blen pre) (by omega) l hle
      have heq : e0 = wordEdge t w.entry (blen pre) w.surface := ho.2.2.1
      -- the prefix is the same string
      have hpp : pre' = pre := by
        obtain ⟨post, hpost⟩ := hch.seg.prefix
        exact (prefix_unique (hpost.trans ho.1) hpre').1
      subst hpp
      obtain ⟨left', hleft', hlast, hcost⟩ := hch.edge
      rw [hleft] at hleft'
      cases hleft'
      have hentry : e.wordEntry = w.entry := by rw [hsame.2.1, heq]; rfl
      refine ⟨pre' ++ w.surface, ws ++ [w], ?_, .snoc hch.seg (usable_of_origin ho),
        .step he0 ho he hl hle hch.chain, ⟨e, he, ?_, ?_⟩, ?_⟩
      · rw [blen_append, ← hstop, heq]; rfl
      · rw [lastEntry_snoc, hentry]
      · rw [heq] at hsame
        rw [penaltyCost_word hsame, hp, hceq, hentry, inner_snoc]
        rw [hentry] at hcc
        have hcc' := conn_of_cost hcc
        rw [hlast] at hcc'
        rw [Int32.ofInt_add, Int32.ofInt_add, Int32.ofInt_add, ← hcost, ← hcc', Int32.ofInt_int16ToInt]
        ac_rfl
      · intro lat fuel hlat hf
        cases fuel with
        | zero => omega
        | succ fuel =>
          have hlt := id_lt_of_end hI he0 (by rw [hb1]; exact hle)
          simp only [Lattice.followLeft, hlat, he, orPanic_some, bind_ok, hl]
          rw [hch.follow lat fuel hlat (by omega)]
          simp only [bind_ok, pure_eq_ok, Except.ok.injEq]
          rw [offsetsFrom_append]
          simp only [offsetsFrom, List.reverse_append, List.reverse_cons, List.reverse_nil,
            List.nil_append, List.singleton_append, List.cons.injEq, and_true, Prod.mk.injEq]
          rw [hch.seg.surfaces_eq, hentry, hsame.2.2.1, hb1]
          simp

/-- Every segmentation of a prefix is made of lattice edges. -/
theorem edge_of_segTo (hI : ScanInv env text (blen text) es ue) {pre : Str} {ws : List Word}
    (h : SegTo env text pre ws) :
    (ws = [] ∧ pre = []) ∨ ∃ (ws' : List Word) (w : Word) (pre' : Str) (k : Nat) (e : Edge) (rest : Str) (t : EdgeType), ws = ws' ++ [w] ∧ pre = pre' ++ w.surface ∧
      es[k]? = some e ∧ Origin env text es e pre' rest t w ∧ SegTo env text pre' ws' := by
  induction h with
  | nil => exact .inl ⟨rfl, rfl⟩
  | @snoc pre ws w hseg hu ih =>
    right
    have hreach : reached es (blen pre) = true := by
      rcases ih with ⟨_, rfl⟩ | ⟨ws', w', pre', k, e, rest, t, rfl, rfl, he, ho, _⟩
      · simp [reached]
      · simp only [reached, Bool.or_eq_true, List.any_eq_true, beq_iff_eq]
        refine .inr ⟨e, List.mem_of_getElem? he, ?_⟩
        rw [ho.2.2.1]; simp [wordEdge]
    obtain ⟨hne, post, hpost⟩ := hu.split
    obtain ⟨rest, reach, latest, ht, hs, hw⟩ := hu
    obtain ⟨t, hw⟩ := wordAt_iff.mp hw
    have ho : Origin env text es (wordEdge t w.entry (blen pre) w.surface) pre rest t w :=
      ⟨ht, hreach, rfl, reach, latest, hs, hw⟩
    have hmem := hI.complete _ _ _ _ _ (by
      rw [hpost]; have := blen_pos hne; simp; omega) ho
    obtain ⟨k, hk⟩ := List.getElem?_of_mem hmem
    exact ⟨ws, w, pre, k, _, rest, t, rfl, rfl, hk, ho, hseg⟩

theorem reached_of_segTo (hI : ScanInv env text (blen text) es ue) {pre : Str} {ws : List Word}
    (h : SegTo env text pre ws) : reached es (blen pre) = true := by
  rcases edge_of_segTo hI h with ⟨_, rfl⟩ | ⟨ws', w', pre', k, e, rest, t, rfl, rfl, he, ho, _⟩
  · simp [reached]
  · simp only [reached, Bool.or_eq_true, List.any_eq_true, beq_iff_eq]
    refine .inr ⟨e, List.mem_of_getElem? he, ?_⟩
    rw [ho.2.2.1]; simp [wordEdge]

/-- Cost of reaching a position through the first best edge. -/
theorem left_min (hI : ScanInv env text (blen text) es ue) (hB : Settled m env.mode (blen text) es edges)
    (hno : InRange env m text) {pre : Str} {ws : List Word}
    {id : Nat} (hid : id ∈ endIds es (blen pre)) {left : Edge} (hleft : edges[id]? = some left)
    (hlast : left.wordEntry = lastEntry .default ws)
    (hle : (left.pathCost + env.mode.penaltyCost left).toInt ≤ inner m env.mode .default ws)
    {p : Nat} {e : Edge} (hp : p = blen pre) {costs : List (Int32 × Nat)} {c : Int32} {l : Nat}
    (hc : (endIds es p).mapM (leftCostE edges m env.mode e.wordEntry) = .ok costs)
    (hm : minByCost costs = some (c, l)) :
    c.toInt ≤ inner m env.mode .default ws + conn m (lastEntry .default ws) e.wordEntry := by
  subst hp
  obtain ⟨y, hy, hf⟩ := mem_mapM_ok hc hid
  have hmin := (minByCost_le hm).2 y hy
  unfold leftCostE at hf
  rw [hleft] at hf
  simp only [bind_eq_ok, orPanic_some, bind_ok] at hf
  obtain ⟨cc, hcc, hf⟩ := hf
  simp at hf
  subst hf
  simp only at hmin
  have hcc' := conn_of_cost hcc
  -- the left edge's own chain keeps the sum in range
  obtain ⟨pre', ws', hpre', hch⟩ := path_to hI hB _ _ hid
  obtain ⟨left', hl', hlast', hcost'⟩ := hch.edge
  rw [hleft] at hl'
  cases hl'
  have hb0 := hno _ _ hch.seg 0 (by simp)
  have hb := hno _ _ hch.seg (conn m left.wordEntry e.wordEntry) (conn_le _ _ _)
  have e1 : left.pathCost + cc + env.mode.penaltyCost left
      = Int32.ofInt (inner m env.mode .default ws' + conn m left.wordEntry e.wordEntry) := by
    rw [Int32.ofInt_add, ← hcost', ← hcc']
    ac_rfl
  rw [e1, Int32.toInt_ofInt_of_le hb.1 hb.2] at hmin
  rw [hcost', Int32.toInt_ofInt_of_le (by omega) (by omega)] at hle
  rw [hlast] at hmin
  omega

/-- A settled edge costs at most as much as any segmentation that ends with its word. -/
theorem optimal_edge (hI : ScanInv env text (blen text) es ue) (hB : Settled m env.mode (blen text) es edges)
    (hno : InRange env m text) {pre : Str} {ws : List Word} {w : Word}
    (ih : ∃ id ∈ endIds es (blen pre), ∃ e, edges[id]? = some e ∧ e.wordEntry = lastEntry .default ws ∧
      (e.pathCost + env.mode.penaltyCost e).toInt ≤ inner m env.mode .default ws)
    {k : Nat} {e0 : Edge} (he0 : es[k]? = some e0) {rest : Str} {t : EdgeType}
    (ho : Origin env text es e0 pre rest t w) :
    ∃ e, edges[k + 2]? = some e ∧ e.wordEntry = w.entry ∧
      (e.pathCost + env.mode.penaltyCost e).toInt ≤ inner m env.mode .default (ws ++ [w]) := by
  obtain ⟨id, hid, left, hleft, hlast, hle⟩ := ih
  obtain ⟨e, he, hsame⟩ := hB.get he0
  have hb := ho.bounds
  have hpos : posOf (blen text) es (k + 2) = some (blen pre) := by simp [posOf, he0, hb.1]
  have hbell := hB.bellman (k + 2) _ hpos e he
  obtain ⟨costs, c, l, left', cc, hc, hm, hl, hp, hle', hleft', hcc, hceq⟩ := hbell.left ho.2.1
  have heq : e0 = wordEdge t w.entry (blen pre) w.surface := ho.2.2.1
  have hentry : e.wordEntry = w.entry := by rw [hsame.2.1, heq]; rfl
  have hmin := left_min hI hB hno hid hleft hlast hle (e := e) rfl hc hm
  refine ⟨e, he, hentry, ?_⟩
  -- the edge's own chain keeps the sum in range
  obtain ⟨pre', ws', hpre', hch⟩ := path_to hI hB _ _ hle'
  obtain ⟨left2, hl2, hlast2, hcost2⟩ := hch.edge
  rw [hleft'] at hl2
  cases hl2
  have hbd := hno _ _ hch.seg (conn m left'.wordEntry e.wordEntry) (conn_le _ _ _)
  have hcc' := conn_of_cost hcc
  have hc' : c = Int32.ofInt (inner m env.mode .default ws' + conn m left'.wordEntry e.wordEntry) := by
    rw [hceq, Int32.ofInt_add, ← hcost2, ← hcc']; ac_rfl
  have hcI : c.toInt = inner m env.mode .default ws' + conn m left'.wordEntry e.wordEntry := by
    rw [hc', Int32.toInt_ofInt_of_le hbd.1 hbd.2]
  have hsame' := hsame
  rw [heq] at hsame'
  have htot : e.pathCost + env.mode.penaltyCost e =
      Int32.ofInt (inner m env.mode .default (ws' ++ [w])) := by
    rw [penaltyCost_word hsame', hp, hc', hentry, inner_snoc, ← hlast2]
    rw [Int32.ofInt_add, Int32.ofInt_add, Int32.ofInt_add, Int32.ofInt_add, Int32.ofInt_int16ToInt]
    ac_rfl
  have hpp : pre' = pre := by
    obtain ⟨post, hpost⟩ := hch.seg.prefix
    exact (prefix_unique (hpost.trans ho.1) hpre').1
  subst hpp
  have hb2 := hno _ _ (SegTo.snoc hch.seg (usable_of_origin ho)) 0 (by simp)
  rw [htot, Int32.toInt_ofInt_of_le (by omega) (by omega), inner_snoc, inner_snoc, ← hlast2]
  rw [hentry] at hmin hcI
  rw [hcI] at hmin
  omega

theorem optimal (hI : ScanInv env text (blen text) es ue) (hB : Settled m env.mode (blen text) es edges)
    (hno : InRange env m text) {pre : Str} {ws : List Word} (h : SegTo env text pre ws) :
    ∃ id ∈ endIds es (blen pre), ∃ e, edges[id]? = some e ∧ e.wordEntry = lastEntry .default ws ∧
      (e.pathCost + env.mode.penaltyCost e).toInt ≤ inner m env.mode .default ws := by
  induction h with
  | nil =>
    refine ⟨0, by simp [endIds], _, hB.bos, rfl, ?_⟩
    rw [penaltyCost_default]
    simp [inner, Edge.default]
  | @snoc pre ws w hseg hu ih =>
    rcases edge_of_segTo hI (.snoc hseg hu) with ⟨h0, _⟩ | ⟨ws', w', pre', k, e0, rest, t, hws, hpre, he0, ho, hseg'⟩
    · simp at h0
    · obtain ⟨rfl, hw'⟩ := List.append_inj' hws rfl
      simp only [List.cons.injEq, and_true] at hw'
      subst hw'
      have hpp : pre = pre' := List.append_cancel_right hpre
      subst hpp
      obtain ⟨e, he, hentry, hle⟩ := optimal_edge hI hB hno ih he0 ho
      refine ⟨k + 2, ?_, e, he, by rw [lastEntry_snoc, hentry], hle⟩
      rw [mem_endIds]
      exact .inr ⟨k, e0, rfl, he0, by rw [ho.2.2.1]; simp [wordEdge]⟩

/-! ### The whole sentence -/

/-- Among the segmentations found for each last word, `ws` has the least wrapped cost. -/
def LastRule (env : LatticeEnv) (m : ConnMatrix) (text : Str) (ws : List Word) : Prop :=
  ∀ us v, Segmentation env text (us ++ [v]) → ∃ us', Segmentation env text (us' ++ [v]) ∧ Int32.ofInt (cost m env.mode ws) ≤ Int32.ofInt (cost m env.mode (us' ++ [v]))

theorem lastRule (hI : ScanInv env text (blen text) es ue) (hB : Settled m env.mode (blen text) es edges) {eos : Edge} (hee : eos.wordEntry = WordEntry.default) {costs : List (Int32 × Nat)}
    {c : Int32} {l : Nat} (hc : (endIds es (blen text)).mapM (leftCostE edges m env.mode eos.wordEntry) = .ok costs) (hm : minByCost costs = some (c, l)) {ws : List Word}
    (hcw : c = Int32.ofInt (cost m env.mode ws)) : LastRule env m text ws := by
  intro us v hs
  rw [segmentation_iff] at hs
  rcases edge_of_segTo hI hs with ⟨h0, _⟩ | ⟨ws', w', pre', k, e0, rest, t, hws, hpre, he0, ho, hseg'⟩
  · simp at h0
  · obtain ⟨rfl, hw'⟩ := List.append_inj' hws rfl
    simp only [List.cons.injEq, and_true] at hw'
    subst hw'
    have hid : k + 2 ∈ endIds es (blen text) := by
      rw [mem_endIds]
      exact .inr ⟨k, e0, rfl, he0, by rw [ho.2.2.1, hpre]; simp [wordEdge]⟩
    obtain ⟨pre, vs, hb, hch⟩ := path_to hI hB _ _ hid
    have hpt : pre = text := by
      obtain ⟨post, hpost⟩ := hch.seg.prefix
      exact (prefix_unique (hpost.trans (List.append_nil _).symm) hb).1
    obtain ⟨left, hl, hlast, hcost⟩ := hch.edge
    cases hch.chain with
    | @step _ e0' e pre2 rest2 t2 w2 lf us' h1 h2 h3 h4 h5 h6 =>
      rw [he0] at h1
      cases h1
      have e1 := ho.2.2.1
      have e2 := h2.2.2.1
      have hstart : blen pre' = blen pre2 := by
        have := congrArg Edge.startIndex (e1.symm.trans e2)
        exact this
      have hentry : v.entry = w2.entry := congrArg Edge.wordEntry (e1.symm.trans e2)
      have hpp := prefix_unique (hpre.symm.trans hpt.symm) hstart
      have hw : v = w2 := by
        obtain ⟨a, b⟩ := v
        obtain ⟨a', b'⟩ := w2
        exact congrArg₂ Word.mk hpp.2 hentry
      subst hw
      refine ⟨us', segmentation_iff.mpr (hpt ▸ hch.seg), ?_⟩
      obtain ⟨y, hy, hf⟩ := mem_mapM_ok hc hid
      have hmin := (minByCost_le hm).2 y hy
      unfold leftCostE at hf
      rw [hl] at hf
      simp only [bind_eq_ok, orPanic_some, bind_ok] at hf
      obtain ⟨cc, hcc, hf⟩ := hf
      simp at hf
      subst hf
      rw [← hcw, Int32.le_iff_toInt_le]
      have e3 : left.pathCost + cc + env.mode.penaltyCost left = Int32.ofInt (cost m env.mode (us' ++ [v])) := by
        rw [cost_eq, Int32.ofInt_add, ← hcost, ← hlast, ← hee, ← conn_of_cost hcc]
        ac_rfl
      rw [← e3]
      exact hmin

/-- What `tokens_offset` returns on a settled lattice. -/
theorem tokensOffset_spec (hI : ScanInv env text (blen text) es ue)
    (hB : Settled m env.mode (blen text) es edges) (l : Lattice) (hl : l.edges = edges) :
    (∃ ws, Segmentation env text ws ∧ l.tokensOffset = .ok (offsetsFrom 0 ws) ∧
      (InRange env m text → Cheapest env m text ws) ∧ LastRule env m text ws ∧
      ∃ (eos : Edge) (lf : Nat), edges[1]? = some eos ∧ eos.leftEdge = some lf ∧
        lf ∈ endIds es (blen text) ∧ Chain env text es edges lf text ws) ∨
    ((¬ ∃ ws, Segmentation env text ws) ∧ l.tokensOffset = .ok []) := by
  obtain ⟨eos, heos⟩ : ∃ e, edges[1]? = some e := by
    have : 1 < edges.length := by rw [hB.length]; omega
    exact ⟨edges[1], by simp [this]⟩
  have hsame : SameWord eos Edge.default := by
    obtain ⟨e0, h0, hs⟩ := hB.same 1 eos heos
    simp at h0
    subst h0
    exact hs
  have hbell := hB.bellman 1 (blen text) rfl eos heos
  by_cases hr : reached es (blen text) = true
  · left
    obtain ⟨costs, c, lf, left, cc, hc, hm, hlf, hp, hle, hleft, hcc, hceq⟩ := hbell.left hr
    obtain ⟨pre, ws, hpre, hch⟩ := path_to hI hB _ _ hle
    have hpt : pre = text := by
      obtain ⟨post, hpost⟩ := hch.seg.prefix
      exact (prefix_unique (hpost.trans (List.append_nil _).symm) hpre).1
    subst hpt
    have hee : eos.wordEntry = WordEntry.default := by rw [hsame.2.1]; rfl
    refine ⟨ws, segmentation_iff.mpr hch.seg, ?_, ?_, ?_, eos, lf, heos, hlf, hle, hch.chain⟩
    · unfold Lattice.tokensOffset
      have hlf' : lf + 1 ≤ l.edges.length := by
        rw [hl]
        exact (List.getElem?_eq_some_iff.mp hleft).1
      have : l.followLeft (l.edges.length + 1) eosNode =
          .ok ((eos.startIndex, eos.wordEntry.wordId) :: (offsetsFrom 0 ws).reverse) := by
        rw [Lattice.followLeft, hl]
        simp only [eosNode, heos, orPanic_some, bind_ok, hlf]
        rw [hch.follow l edges.length hl (by rw [← hl]; exact hlf')]
        rfl
      rw [this]
      simp
    · intro hno vs hvs
      rw [segmentation_iff] at hvs
      obtain ⟨id, hid, le, hleg, hlast, hcost⟩ := optimal hI hB hno hvs
      have hmin := left_min hI hB hno hid hleg hlast hcost (e := eos) rfl hc hm
      obtain ⟨left', hl', hlast', hcost'⟩ := hch.edge
      rw [hleft] at hl'
      cases hl'
      have hbd := hno _ _ hch.seg (conn m left.wordEntry eos.wordEntry) (conn_le _ _ _)
      have hcI : c.toInt = inner m env.mode .default ws + conn m left.wordEntry eos.wordEntry := by
        have hcc' := conn_of_cost hcc
        have : c = Int32.ofInt (inner m env.mode .default ws + conn m left.wordEntry eos.wordEntry) := by
          rw [hceq, Int32.ofInt_add, ← hcost', ← hcc']; ac_rfl
        rw [this, Int32.toInt_ofInt_of_le hbd.1 hbd.2]
      rw [cost_eq, cost_eq, ← hlast']
      rw [hcI, hee] at hmin
      exact hmin
    · refine lastRule hI hB hee hc hm ?_
      obtain ⟨left', hl', hlast', hcost'⟩ := hch.edge
      rw [hleft] at hl'
      cases hl'
      rw [cost_eq, Int32.ofInt_add, ← hcost', ← hlast', ← hee, ← conn_of_cost hcc, hceq]
      ac_rfl
  · right
    simp only [Bool.not_eq_true] at hr
    constructor
    · rintro ⟨ws, hws⟩
      rw [segmentation_iff] at hws
      rw [reached_of_segTo hI hws] at hr
      cases hr
    · unfold Bellman at hbell
      rw [hr] at hbell
      simp only [Bool.false_eq_true, if_false] at hbell
      unfold Lattice.tokensOffset
      rw [Lattice.followLeft, hl]
      simp only [eosNode, heos, orPanic_some, bind_ok, hbell]
      rfl

end Verif.Model
