import Verif.Proofs.LatticeGen
/-! The cost pass: every edge gets the first best predecessor (Bellman equations). -/
namespace Verif.Model

/-! ### Membership in the index vectors -/

theorem mem_idsWhere {p : Edge → Bool} {es : List Edge} {id : Nat} :
    id ∈ idsWhere p es ↔ ∃ k e, id = k + 2 ∧ es[k]? = some e ∧ p e = true := by
  unfold idsWhere
  simp only [List.mem_map, List.mem_filter, Prod.exists]
  constructor
  · rintro ⟨e, i, ⟨h, hp⟩, rfl⟩
    rw [List.mk_mem_zipIdx_iff_le_and_getElem?_sub] at h
    exact ⟨i - 2, e, by omega, h.2, hp⟩
  · rintro ⟨k, e, rfl, h, hp⟩
    exact ⟨e, k + 2, ⟨by rw [List.mk_mem_zipIdx_iff_le_and_getElem?_sub]; exact ⟨by omega, by simpa using h⟩, hp⟩, rfl⟩

/-- Where the right end of the predecessor of an edge must lie: the edge's start (`len` for the end-of-sentence edge). -/
def posOf (len : Nat) (es : List Edge) : Nat → Option Nat
  | 0 => none
  | 1 => some len
  | k + 2 => es[k]?.map (·.startIndex)

theorem mem_startIds {len : Nat} {es : List Edge} {i id : Nat} :
    id ∈ startIds len es i ↔ posOf len es id = some i := by
  unfold startIds
  rw [List.mem_append, mem_idsWhere]
  match id with
  | 0 => simp [posOf]
  | 1 =>
    simp only [posOf, Option.some.injEq]
    constructor
    · rintro (h | ⟨k, e, h, _⟩)
      · split at h
        · rename_i h'; exact h'.symm
        · simp at h
      · omega
    · rintro rfl; simp
  | k + 2 =>
    simp only [posOf, Option.map_eq_some_iff]
    constructor
    · rintro (h | ⟨k', e, h, he, hp⟩)
      · split at h <;> simp at h
      · have : k' = k := by omega
        subst this
        exact ⟨e, he, by simpa using hp⟩
    · rintro ⟨e, he, hs⟩
      exact .inr ⟨k, e, rfl, he, by simpa using hs⟩

theorem mem_endIds {es : List Edge} {i id : Nat} :
    id ∈ endIds es i ↔ (id = 0 ∧ i = 0) ∨ ∃ k e, id = k + 2 ∧ es[k]? = some e ∧ e.stopIndex = i := by
  unfold endIds
  rw [List.mem_append, mem_idsWhere]
  simp only [beq_iff_eq]
  constructor
  · rintro (h | h)
    · split at h
      · rename_i h'; exact .inl ⟨by simpa using h, h'⟩
      · simp at h
    · exact .inr h
  · rintro (⟨rfl, rfl⟩ | h)
    · simp
    · exact .inr h

theorem endIds_eq_nil {es : List Edge} {i : Nat} : endIds es i = [] ↔ reached es i = false := by
  have := endIds_isEmpty es i
  rw [← List.isEmpty_iff, this]
  simp

/-! ### The cost pass on edge lists -/

def leftCostE (edges : List Edge) (m : ConnMatrix) (mode : Mode) (right : WordEntry) (leftId : Nat) :
    R (Int32 × Nat) := do
  let left ← orPanic edges[leftId]?
  let c ← m.cost left.wordEntry.rightId.toUInt32 right.leftId.toUInt32
  return (left.pathCost + c + mode.penaltyCost left, leftId)

def relaxE (m : ConnMatrix) (mode : Mode) (leftIds : List Nat) (edges : List Edge) (rightId : Nat) :
    R (List Edge) := do
  let right ← orPanic edges[rightId]?
  let costs ← leftIds.mapM (leftCostE edges m mode right.wordEntry)
  match minByCost costs with
  | some (bestCost, bestLeft) =>
    let edge : Edge :=
      { right with leftEdge := some bestLeft, pathCost := right.wordEntry.wordCost.toInt32 + bestCost }
    return edges.set rightId edge
  | none => return edges

/-- The cost pass, independent of the lattice's capacity. -/
def calcE (m : ConnMatrix) (mode : Mode) (len : Nat) (es edges : List Edge) : R (List Edge) :=
  (List.range (len + 1)).foldlM (init := edges) fun edges i =>
    (startIds len es i).foldlM (init := edges) (relaxE m mode (endIds es i))

theorem relax_latOf {cap len : Nat} {es edges : List Edge} (m : ConnMatrix) (mode : Mode)
    (leftIds : List Nat) (rightId : Nat) :
    Lattice.relax m mode leftIds (latOf cap len es edges) rightId =
      (do let edges' ← relaxE m mode leftIds edges rightId
          return latOf cap len es edges') := by
  unfold Lattice.relax relaxE
  have hl : (latOf cap len es edges).leftCost m mode = leftCostE edges m mode := rfl
  simp only [hl, show (latOf cap len es edges).edges = edges from rfl]
  cases edges[rightId]? with
  | none => simp
  | some right =>
    simp only [orPanic_some, bind_ok]
    cases leftIds.mapM (leftCostE edges m mode right.wordEntry) with
    | error e => simp
    | ok costs =>
      simp only [bind_ok]
      cases minByCost costs with
      | none => simp
      | some b => simp [latOf]

theorem calculatePathCosts_latOf {cap len : Nat} {es edges : List Edge} (m : ConnMatrix) (mode : Mode)
    (hcap : len ≤ cap) (hstart : ∀ e ∈ es, e.startIndex < len) :
    (latOf cap len es edges).calculatePathCosts m mode =
      (do let edges' ← calcE m mode len es edges
          return latOf cap len es edges') := by
  unfold Lattice.calculatePathCosts calcE
  have hlen : (latOf cap len es edges).startsAt.length = cap + 1 := by simp [latOf]
  rw [hlen]
  have inner : ∀ (rights : List Nat) (leftIds : List Nat) (edges : List Edge),
      rights.foldlM (Lattice.relax m mode leftIds) (latOf cap len es edges) =
      (do let edges' ← rights.foldlM (relaxE m mode leftIds) edges
          return latOf cap len es edges') := by
    intro rights leftIds
    induction rights with
    | nil => intro edges; simp
    | cons r rs ih =>
      intro edges
      rw [List.foldlM_cons, List.foldlM_cons, relax_latOf]
      cases relaxE m mode leftIds edges r with
      | error e => simp
      | ok edges' => simp only [bind_ok, pure_eq_ok] at ih ⊢; exact ih edges'
  have outer : ∀ (xs : List Nat) (edges : List Edge), (∀ x ∈ xs, x ≤ cap) →
      xs.foldlM (fun (l : Lattice) i => do
        let leftIds ← orPanic l.endsAt[i]?
        let rightIds ← orPanic l.startsAt[i]?
        rightIds.foldlM (Lattice.relax m mode leftIds) l) (latOf cap len es edges) =
      (do let edges' ← xs.foldlM (fun edges i =>
            (startIds len es i).foldlM (relaxE m mode (endIds es i)) edges) edges
          return latOf cap len es edges') := by
    intro xs
    induction xs with
    | nil => intro edges _; simp
    | cons x xs ih =>
      intro edges hx
      have hxc : x < cap + 1 := by have := hx x (by simp); omega
      have he : (latOf cap len es edges).endsAt[x]? = some (endIds es x) := by
        simp [latOf, List.getElem?_map, List.getElem?_range hxc]
      have hs : (latOf cap len es edges).startsAt[x]? = some (startIds len es x) := by
        simp [latOf, List.getElem?_map, List.getElem?_range hxc]
      rw [List.foldlM_cons, List.foldlM_cons]
      simp only [he, hs, orPanic_some, bind_ok, inner]
      cases (startIds len es x).foldlM (relaxE m mode (endIds es x)) edges with
      | error e => simp
      | ok edges' =>
        simp only [bind_ok, pure_eq_ok] at ih ⊢
        exact ih edges' (fun y hy => hx y (by simp [hy]))
  rw [outer _ _ (by simp; omega)]
  have hsplit : List.range (cap + 1) = List.range (len + 1) ++ (List.range' (len + 1) (cap - len)) := by
    rw [List.range_eq_range', List.range_eq_range', show cap + 1 = (len + 1) + (cap - len) by omega,
      List.range'_append_1.symm]
    simp
  rw [hsplit, List.foldlM_append]
  have htail : ∀ (xs : List Nat) (edges : List Edge), (∀ x ∈ xs, len < x) →
      xs.foldlM (fun edges i =>
            (startIds len es i).foldlM (relaxE m mode (endIds es i)) edges) edges = .ok edges := by
    intro xs
    induction xs with
    | nil => intro edges _; rfl
    | cons x xs ih =>
      intro edges hx
      have hxl := hx x (by simp)
      have hnil : startIds len es x = [] := by
        rw [List.eq_nil_iff_forall_not_mem]
        intro id hid
        rw [mem_startIds] at hid
        match id, hid with
        | 1, hid => simp [posOf] at hid; omega
        | k + 2, hid =>
          simp only [posOf, Option.map_eq_some_iff] at hid
          obtain ⟨e, he, hs⟩ := hid
          have := hstart e (List.mem_of_getElem? he)
          omega
      rw [List.foldlM_cons, hnil]
      simp only [List.foldlM_nil, pure_eq_ok, bind_ok]
      exact ih edges (fun y hy => hx y (by simp [hy]))
  cases List.foldlM (fun edges i => (startIds len es i).foldlM (relaxE m mode (endIds es i)) edges)
      edges (List.range (len + 1)) with
  | error e => simp
  | ok edges' =>
    simp only [bind_ok, pure_eq_ok]
    rw [htail _ _ (by intro x hx; simp at hx; omega)]
    simp

/-! ### Bellman equations -/

/-- `e` and `e0` differ at most in cost and back pointer. -/
def SameWord (e e0 : Edge) : Prop :=
  e.edgeType = e0.edgeType ∧ e.wordEntry = e0.wordEntry ∧ e.startIndex = e0.startIndex ∧
  e.stopIndex = e0.stopIndex ∧ e.kanjiOnly = e0.kanjiOnly

theorem SameWord.rfl' (e : Edge) : SameWord e e := ⟨rfl, rfl, rfl, rfl, rfl⟩

/-- The equation an edge satisfies once its predecessors are settled. -/
def Bellman (m : ConnMatrix) (mode : Mode) (es edges : List Edge) (p : Nat) (e : Edge) : Prop :=
  if reached es p then
    ∃ costs c l, (endIds es p).mapM (leftCostE edges m mode e.wordEntry) = .ok costs ∧
      minByCost costs = some (c, l) ∧ e.leftEdge = some l ∧
      e.pathCost = e.wordEntry.wordCost.toInt32 + c
  else e.leftEdge = none

/-- State of the cost pass once positions below `k` (and, at `k`, all but `todo`) are settled. -/
structure CostInv (m : ConnMatrix) (mode : Mode) (len : Nat) (es : List Edge) (k : Nat)
    (todo : List Nat) (edges : List Edge) : Prop where
  length : edges.length = es.length + 2
  same : ∀ (id : Nat) (e : Edge), edges[id]? = some e →
    ∃ e0, (Edge.default :: Edge.default :: es)[id]? = some e0 ∧ SameWord e e0
  bos : edges[0]? = some Edge.default
  unreached : ∀ (id p : Nat), posOf len es id = some p → reached es p = false →
    ∀ e, edges[id]? = some e → e.leftEdge = none
  settled : ∀ (id p : Nat), posOf len es id = some p → (p < k ∨ (p = k ∧ id ∉ todo)) →
    ∀ e, edges[id]? = some e → Bellman m mode es edges p e

theorem leftCostE_congr {edges edges' : List Edge} {m : ConnMatrix} {mode : Mode} {w : WordEntry}
    {ids : List Nat} (h : ∀ id ∈ ids, edges[id]? = edges'[id]?) :
    ids.mapM (leftCostE edges m mode w) = ids.mapM (leftCostE edges' m mode w) := by
  induction ids with
  | nil => rfl
  | cons id ids ih =>
    rw [List.mapM_cons, List.mapM_cons, ih (fun x hx => h x (by simp [hx]))]
    have : leftCostE edges m mode w id = leftCostE edges' m mode w id := by
      unfold leftCostE; rw [h id (by simp)]
    rw [this]

theorem Bellman.congr {m : ConnMatrix} {mode : Mode} {es edges edges' : List Edge} {p : Nat} {e : Edge}
    (hb : Bellman m mode es edges p e) (h : ∀ id ∈ endIds es p, edges[id]? = edges'[id]?) :
    Bellman m mode es edges' p e := by
  unfold Bellman at hb ⊢
  rw [leftCostE_congr h] at hb
  exact hb

theorem minByCost_eq_none {xs : List (Int32 × Nat)} : minByCost xs = none ↔ xs = [] := by
  cases xs <;> simp [minByCost]

theorem relaxE_inv {m : ConnMatrix} {mode : Mode} {len : Nat} {es edges edges' : List Edge}
    {k x : Nat} {rest : List Nat} (hstop : ∀ e ∈ es, e.startIndex < e.stopIndex)
    (hx : posOf len es x = some k) (hI : CostInv m mode len es k (x :: rest) edges)
    (hr : relaxE m mode (endIds es k) edges x = .ok edges') :
    CostInv m mode len es k rest edges' := by
  unfold relaxE at hr
  rw [bind_eq_ok] at hr
  obtain ⟨right, hright, hr⟩ := hr
  rw [orPanic_eq_ok] at hright
  rw [bind_eq_ok] at hr
  obtain ⟨costs, hcosts, hr⟩ := hr
  have hx0 : x ≠ 0 := by rintro rfl; simp [posOf] at hx
  -- predecessors at positions up to `k` are never `x`
  have hne : ∀ p, p ≤ k → ∀ id ∈ endIds es p, id ≠ x := by
    intro p hp id hid heq
    subst heq
    rcases mem_endIds.mp hid with ⟨h0, _⟩ | ⟨j, e, rfl, he, hs⟩
    · exact hx0 h0
    · simp only [posOf, he, Option.map_some, Option.some.injEq] at hx
      have := hstop e (List.mem_of_getElem? he)
      omega
  cases hmin : minByCost costs with
  | none =>
    rw [hmin] at hr
    simp at hr
    subst hr
    have hc : costs = [] := minByCost_eq_none.mp hmin
    have hempty : endIds es k = [] := by
      have := mapM_ok_length hcosts
      rw [hc] at this
      exact List.length_eq_zero_iff.mp this.symm
    have hnr := endIds_eq_nil.mp hempty
    refine ⟨hI.length, hI.same, hI.bos, hI.unreached, ?_⟩
    intro id p hp hor e he
    by_cases hid : id = x
    · subst hid
      rw [hx] at hp; cases hp
      have := hI.unreached id k hx hnr e he
      simp [Bellman, hnr, this]
    · refine hI.settled id p hp ?_ e he
      rcases hor with h | ⟨h1, h2⟩
      · exact .inl h
      · exact .inr ⟨h1, by simp [hid, h2]⟩
  | some b =>
    obtain ⟨c, l⟩ := b
    rw [hmin] at hr
    simp only [pure_eq_ok, Except.ok.injEq] at hr
    have hreach : reached es k = true := by
      by_contra h
      have h' := endIds_eq_nil.mpr (by simpa using h)
      rw [h'] at hcosts
      simp at hcosts
      subst hcosts
      simp [minByCost] at hmin
    have hget : ∀ id, id ≠ x → edges'[id]? = edges[id]? := by
      intro id hid
      rw [← hr, List.getElem?_set_ne (Ne.symm hid)]
    have hgetx : edges'[x]? = some { right with leftEdge := some l, pathCost := right.wordEntry.wordCost.toInt32 + c } := by
      rw [← hr, List.getElem?_set_self]
      exact (List.getElem?_eq_some_iff.mp hright).1
    refine ⟨by rw [← hr]; simp [hI.length], ?_, ?_, ?_, ?_⟩
    · intro id e he
      by_cases hid : id = x
      · subst hid
        rw [hgetx] at he; cases he
        obtain ⟨e0, he0, hs⟩ := hI.same id right hright
        exact ⟨e0, he0, hs⟩
      · rw [hget id hid] at he
        exact hI.same id e he
    · rw [hget 0 (Ne.symm hx0)]; exact hI.bos
    · intro id p hp hnr e he
      have hid : id ≠ x := by
        rintro rfl
        rw [hx] at hp; cases hp
        rw [hreach] at hnr; cases hnr
      rw [hget id hid] at he
      exact hI.unreached id p hp hnr e he
    · intro id p hp hor e he
      have hpk : p ≤ k := by omega
      have hcongr : ∀ i ∈ endIds es p, edges[i]? = edges'[i]? :=
        fun i hi => (hget i (hne p hpk i hi)).symm
      by_cases hid : id = x
      · subst hid
        rw [hx] at hp; cases hp
        rw [hgetx] at he; cases he
        unfold Bellman
        rw [if_pos hreach]
        exact ⟨costs, c, l, by rw [← leftCostE_congr hcongr]; exact hcosts, hmin, rfl, rfl⟩
      · rw [hget id hid] at he
        refine Bellman.congr (hI.settled id p hp ?_ e he) hcongr
        rcases hor with h | ⟨h1, h2⟩
        · exact .inl h
        · exact .inr ⟨h1, by simp [hid, h2]⟩

theorem costInv_init (m : ConnMatrix) (mode : Mode) (len : Nat) (es : List Edge)
    (hleft : ∀ e ∈ es, e.leftEdge = none) :
    CostInv m mode len es 0 (startIds len es 0) (Edge.default :: Edge.default :: es) := by
  refine ⟨by simp, fun id e he => ⟨e, he, SameWord.rfl' e⟩, rfl, ?_, ?_⟩
  · intro id p hp _ e he
    match id, he with
    | 0, he => simp at he; subst he; rfl
    | 1, he => simp at he; subst he; rfl
    | k + 2, he => exact hleft e (List.mem_of_getElem? (by simpa using he))
  · intro id p hp hor e he
    rcases hor with h | ⟨h1, h2⟩
    · omega
    · subst h1; exact absurd (mem_startIds.mpr hp) h2

theorem costInv_next {m : ConnMatrix} {mode : Mode} {len : Nat} {es edges : List Edge} {k : Nat}
    (h : CostInv m mode len es k [] edges) : CostInv m mode len es (k + 1) (startIds len es (k + 1)) edges := by
  refine ⟨h.length, h.same, h.bos, h.unreached, ?_⟩
  intro id p hp hor e he
  rcases hor with h' | ⟨h1, h2⟩
  · refine h.settled id p hp ?_ e he
    by_cases hpk : p = k
    · exact .inr ⟨hpk, by simp⟩
    · exact .inl (by omega)
  · subst h1; exact absurd (mem_startIds.mpr hp) h2

/-- The result of the cost pass satisfies all Bellman equations. -/
structure Settled (m : ConnMatrix) (mode : Mode) (len : Nat) (es edges : List Edge) : Prop where
  length : edges.length = es.length + 2
  same : ∀ (id : Nat) (e : Edge), edges[id]? = some e →
    ∃ e0, (Edge.default :: Edge.default :: es)[id]? = some e0 ∧ SameWord e e0
  bos : edges[0]? = some Edge.default
  bellman : ∀ (id p : Nat), posOf len es id = some p →
    ∀ e, edges[id]? = some e → Bellman m mode es edges p e

theorem calcE_inner_inv {m : ConnMatrix} {mode : Mode} {len : Nat} {es edges edges' : List Edge} {k : Nat}
    (hstop : ∀ e ∈ es, e.startIndex < e.stopIndex)
    (hI : CostInv m mode len es k (startIds len es k) edges)
    (hr : (startIds len es k).foldlM (relaxE m mode (endIds es k)) edges = .ok edges') :
    CostInv m mode len es k [] edges' := by
  have := foldlM_inv (f := relaxE m mode (endIds es k))
    (fun todo b => (∀ x ∈ todo, x ∈ startIds len es k) ∧ CostInv m mode len es k todo b)
    (by
      rintro x rest b b' ⟨hmem, hP⟩ hf
      exact ⟨fun y hy => hmem y (by simp [hy]),
        relaxE_inv hstop (mem_startIds.mp (hmem x (by simp))) hP hf⟩)
    _ _ _ ⟨fun _ h => h, hI⟩ hr
  exact this.2

theorem calcE_settled {m : ConnMatrix} {mode : Mode} {len : Nat} {es edges' : List Edge}
    (hstop : ∀ e ∈ es, e.startIndex < e.stopIndex) (hstart : ∀ e ∈ es, e.startIndex < len)
    (hleft : ∀ e ∈ es, e.leftEdge = none)
    (hr : calcE m mode len es (Edge.default :: Edge.default :: es) = .ok edges') :
    Settled m mode len es edges' := by
  have := foldlM_range_inv (len + 1) (fun k b => CostInv m mode len es k (startIds len es k) b)
    (by
      intro i b b' _ hP hf
      exact costInv_next (calcE_inner_inv hstop hP hf))
    _ _ (costInv_init m mode len es hleft) hr
  refine ⟨this.length, this.same, this.bos, ?_⟩
  intro id p hp e he
  refine this.settled id p hp ?_ e he
  left
  match id, hp with
  | 1, hp => simp [posOf] at hp; omega
  | k + 2, hp =>
    simp only [posOf, Option.map_eq_some_iff] at hp
    obtain ⟨e, he, hs⟩ := hp
    have := hstart e (List.mem_of_getElem? he)
    omega

end Verif.Model
