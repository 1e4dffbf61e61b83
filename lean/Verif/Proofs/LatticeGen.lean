import Verif.Model.Viterbi
import Verif.Proofs.Basic
import Verif.Proofs.Monad
/-!
`set_text` computes, for a lattice with any history, a lattice that is a function of the list of edges found by a pure scan of the text.
-/
namespace Verif.Model

/-- Ids (numbered from 2) of the edges satisfying a condition. -/
def idsWhere (p : Edge → Bool) (es : List Edge) : List Nat :=
  ((es.zipIdx 2).filter (fun q => p q.1)).map (·.2)

def startIds (len : Nat) (es : List Edge) (i : Nat) : List Nat :=
  (if i = len then [1] else []) ++ idsWhere (·.startIndex == i) es

def endIds (es : List Edge) (i : Nat) : List Nat :=
  (if i = 0 then [0] else []) ++ idsWhere (·.stopIndex == i) es

/-- The lattice whose index vectors are those of the word edges `es` and whose edge vector is `edges`. -/
def latOf (cap len : Nat) (es edges : List Edge) : Lattice :=
  ⟨cap, edges, (List.range (cap + 1)).map (startIds len es), (List.range (cap + 1)).map (endIds es)⟩

/-- The lattice of a text of `len` bytes with word edges `es`, before costs are computed. -/
def lat (cap len : Nat) (es : List Edge) : Lattice :=
  latOf cap len es (Edge.default :: Edge.default :: es)

theorem idsWhere_append_one (p : Edge → Bool) (es : List Edge) (e : Edge) :
    idsWhere p (es ++ [e]) = idsWhere p es ++ (if p e then [es.length + 2] else []) := by
  unfold idsWhere
  rw [List.zipIdx_append, List.filter_append, List.map_append]
  congr 1
  simp only [List.zipIdx_cons, List.zipIdx_nil, List.filter_cons, List.filter_nil]
  split <;> simp [Nat.add_comm]

theorem modify_map_range {β : Type} (n i : Nat) (f : Nat → β) (g : β → β) :
    ((List.range n).map f).modify i g = (List.range n).map (fun j => if j = i then g (f j) else f j) := by
  apply List.ext_getElem
  · simp
  · intro j h1 h2
    simp [List.getElem_modify]
    split <;> rename_i h
    · subst h; simp
    · rw [if_neg (by omega)]

theorem addEdgeInLattice_lat {cap len : Nat} {es : List Edge} {e : Edge}
    (h1 : e.startIndex ≤ cap) (h2 : e.stopIndex ≤ cap) :
    (lat cap len es).addEdgeInLattice e = .ok (lat cap len (es ++ [e])) := by
  unfold Lattice.addEdgeInLattice lat latOf Lattice.addEdge pushAt
  simp only [List.length_map, List.length_range]
  rw [if_pos (by omega), if_pos (by omega)]
  simp only [bind_ok, pure_eq_ok, Except.ok.injEq, Lattice.mk.injEq, true_and, modify_map_range,
    List.length_cons]
  refine ⟨by simp, ?_, ?_⟩
  · apply List.map_congr_left
    intro j _
    simp only [startIds, idsWhere_append_one]
    by_cases hj : j = e.startIndex
    · simp [hj]
    · simp [hj, Ne.symm hj]
  · apply List.map_congr_left
    intro j _
    simp only [endIds, idsWhere_append_one]
    by_cases hj : j = e.stopIndex
    · simp [hj]
    · simp [hj, Ne.symm hj]

/-- A word edge before cost calculation. -/
def wordEdge (t : EdgeType) (w : WordEntry) (start : Nat) (surface : Str) : Edge :=
  { edgeType := t, wordEntry := w, leftEdge := none, startIndex := start,
    stopIndex := start + blen surface, pathCost := i32Max, kanjiOnly := isKanjiOnly surface }

/-- The edges `addDictWords` adds. -/
def dictEdges (d : PrefixDict) (start : Nat) (suffix : Str) : R (List Edge) := do
  let ws ← d.prefix suffix
  ws.mapM fun w => do
    let surface ← orPanic (takeBytes suffix w.1)
    return wordEdge .known w.2 start surface

theorem addDictWords_lat {cap len start : Nat} {es : List Edge} {suffix : Str} {d : PrefixDict}
    {found : Bool} (hcap : start + blen suffix ≤ cap) :
    (lat cap len es).addDictWords d start suffix found =
      (do let new ← dictEdges d start suffix
          return (lat cap len (es ++ new), found || !new.isEmpty)) := by
  unfold Lattice.addDictWords dictEdges
  cases hp : d.prefix suffix with
  | error e => simp
  | ok ws =>
    simp only [bind_ok]
    clear hp
    induction ws generalizing es found with
    | nil => simp
    | cons w ws ih =>
      obtain ⟨pl, we⟩ := w
      rw [List.foldlM_cons, List.mapM_cons]
      cases ht : takeBytes suffix pl with
      | none => simp
      | some surface =>
        obtain ⟨r, hr, hb⟩ := takeBytes_eq_some.mp ht
        have hle : blen surface ≤ blen suffix := by rw [hr]; simp
        simp only [orPanic_some, bind_ok]
        rw [show ({ edgeType := .known, wordEntry := we, leftEdge := none, startIndex := start,
                    stopIndex := start + pl, pathCost := i32Max,
                    kanjiOnly := isKanjiOnly surface } : Edge) = wordEdge .known we start surface by
              simp [wordEdge, hb]]
        rw [addEdgeInLattice_lat (by simp [wordEdge]; omega) (by simp [wordEdge]; omega)]
        simp only [bind_ok, pure_eq_ok] at ih ⊢
        rw [ih]
        cases List.mapM (fun w => orPanic (takeBytes suffix w.1) >>= fun surface =>
            Except.ok (wordEdge .known w.2 start surface)) ws with
        | error e => simp
        | ok new => simp

/-- What `process_unknown_word` adds: the new edges and the new `unknown_word_end`. -/
def unkEdges (cd : CharDefs) (unk : UnkDict) (start : Nat) (suffix : Str) (found : Bool)
    (ue : Option Nat) (cat ord : Nat) : R (List Edge × Option Nat) := do
  let n ← unknownNumChars cd cat ord suffix found
  if n > 0 then
    let ids ← unk.lookupWordIds cat
    let new ← ids.mapM fun id => do
      let w ← unk.wordEntry id
      return wordEdge .unknown w start (suffix.take n)
    return (new, some (start + blen (suffix.take n)))
  else
    return ([], ue)

theorem blen_take_le (s : Str) (n : Nat) : blen (s.take n) ≤ blen s := by
  have h := blen_append (s.take n) (s.drop n)
  rw [List.take_append_drop] at h
  omega

theorem processUnknownWord_lat {cap len start cat ord : Nat} {es : List Edge} {suffix : Str}
    {cd : CharDefs} {unk : UnkDict} {ue : Option Nat} {found : Bool} (hcap : start + blen suffix ≤ cap) :
    (lat cap len es).processUnknownWord cd unk cat ord ue start suffix found =
      (do let (new, ue') ← unkEdges cd unk start suffix found ue cat ord
          return (lat cap len (es ++ new), ue')) := by
  unfold Lattice.processUnknownWord unkEdges
  cases unknownNumChars cd cat ord suffix found with
  | error e => simp
  | ok n =>
    simp only [bind_ok]
    split
    · cases unk.lookupWordIds cat with
      | error e => simp
      | ok ids =>
        simp only [bind_ok]
        have hfold : ∀ (ids : List UInt32) (es : List Edge),
            List.foldlM (fun (l : Lattice) wordId => do
              let wordEntry ← unk.wordEntry wordId
              l.addEdgeInLattice
                { edgeType := .unknown, wordEntry, leftEdge := none, startIndex := start,
                  stopIndex := start + blen (suffix.take n), pathCost := i32Max,
                  kanjiOnly := isKanjiOnly (suffix.take n) }) (lat cap len es) ids
            = (do let new ← ids.mapM fun id => do
                        let w ← unk.wordEntry id
                        return wordEdge .unknown w start (suffix.take n)
                  return lat cap len (es ++ new)) := by
          intro ids
          induction ids with
          | nil => intro es; simp
          | cons id ids ih =>
            intro es
            rw [List.foldlM_cons, List.mapM_cons]
            cases unk.wordEntry id with
            | error e => simp
            | ok w =>
              simp only [bind_ok]
              have hb := blen_take_le suffix n
              rw [addEdgeInLattice_lat (by simp; omega) (by simp; omega)]
              simp only [bind_ok]
              rw [ih]
              simp only [pure_eq_ok, bind_ok]
              cases List.mapM (fun id => unk.wordEntry id >>= fun w =>
                  Except.ok (wordEdge .unknown w start (suffix.take n))) ids with
              | error e => simp
              | ok new => simp [wordEdge]
        rw [hfold]
        simp only [pure_eq_ok]
        cases List.mapM (fun id => unk.wordEntry id >>= fun w =>
            Except.ok (wordEdge .unknown w start (suffix.take n))) ids with
        | error e => simp
        | ok new => simp
    · simp

/-- Has an edge ending at byte `p` been found (the text's start counts as one)? -/
def reached (es : List Edge) (p : Nat) : Bool := p == 0 || es.any (·.stopIndex == p)

theorem endIds_isEmpty (es : List Edge) (p : Nat) : (endIds es p).isEmpty = !reached es p := by
  unfold endIds reached
  by_cases hp : p = 0
  · simp [hp]
  · simp only [if_neg hp, List.nil_append]
    have : (p == 0) = false := by simpa using hp
    rw [this, Bool.false_or]
    unfold idsWhere
    have h : ∀ (es : List Edge) (k : Nat),
        (List.map (·.2) (List.filter (fun q : Edge × Nat => q.1.stopIndex == p) (es.zipIdx k))).isEmpty
          = !(es.any (·.stopIndex == p)) := by
      intro es
      induction es with
      | nil => simp
      | cons e es ih =>
        intro k
        simp only [List.zipIdx_cons, List.filter_cons, List.any_cons]
        by_cases h : e.stopIndex = p
        · simp [h]
        · have : (e.stopIndex == p) = false := by simpa using h
          simp [this, ← ih (k + 1)]
    exact h es 2

/-- The edges found in the user dictionary. -/
def userEdges (env : LatticeEnv) (start : Nat) (suffix : Str) : R (List Edge) :=
  match env.userDict with
  | some d => dictEdges d start suffix
  | none => .ok []

/-- The edges for unknown words of all categories of the first character. -/
def allUnkEdges (env : LatticeEnv) (start : Nat) (suffix : Str) (found : Bool) (ue : Option Nat) :
    R (List Edge × Option Nat) :=
  match suffix with
  | [] => .ok ([], ue)
  | c :: _ => do
    let cats ← env.charDefs.lookupCategories c
    cats.zipIdx.foldlM (init := ([], ue)) fun st cat => do
      let r ← unkEdges env.charDefs env.unk start suffix found st.2 cat.1 cat.2
      return (st.1 ++ r.1, r.2)

/-- The edges found at a reached position: dictionary words, then unknown words per category. -/
def newEdges (env : LatticeEnv) (start : Nat) (suffix : Str) (ue : Option Nat) :
    R (List Edge × Option Nat) := do
  let userNew ← userEdges env start suffix
  let sysNew ← dictEdges env.dict start suffix
  if unknownAllowed env.mode ue start then do
    let r ← allUnkEdges env start suffix (!(userNew ++ sysNew).isEmpty) ue
    return (userNew ++ sysNew ++ r.1, r.2)
  else
    return (userNew ++ sysNew, ue)

/-- One step of the pure scan. -/
def genStep (env : LatticeEnv) (text : Str) (st : List Edge × Option Nat) (start : Nat) :
    R (List Edge × Option Nat) := do
  if reached st.1 start then
    let suffix ← orPanic (dropBytes text start)
    let (new, ue) ← newEdges env start suffix st.2
    return (st.1 ++ new, ue)
  else return st

/-- All word edges of a text. -/
def gen (env : LatticeEnv) (text : Str) : R (List Edge) := do
  let (es, _) ← (List.range (blen text)).foldlM (genStep env text) ([], none)
  return es

theorem addUserWords_lat {cap len start : Nat} {es : List Edge} {suffix : Str} {env : LatticeEnv}
    (hcap : start + blen suffix ≤ cap) :
    (lat cap len es).addUserWords env start suffix =
      (do let new ← userEdges env start suffix
          return (lat cap len (es ++ new), !new.isEmpty)) := by
  unfold Lattice.addUserWords userEdges
  cases env.userDict with
  | none => simp
  | some d => simp [addDictWords_lat hcap]

theorem addUnknownWords_lat {cap len start : Nat} {es : List Edge} {suffix : Str} {env : LatticeEnv}
    {ue : Option Nat} {found : Bool} (hcap : start + blen suffix ≤ cap) :
    (lat cap len es).addUnknownWords env ue start suffix found =
      (do let r ← allUnkEdges env start suffix found ue
          return (lat cap len (es ++ r.1), r.2)) := by
  unfold Lattice.addUnknownWords allUnkEdges
  cases suffix with
  | nil => simp
  | cons c cs =>
    simp only
    cases env.charDefs.lookupCategories c with
    | error e => simp
    | ok cats =>
      simp only [bind_ok]
      have key : ∀ (cats : List (Nat × Nat)) (acc : List Edge) (ue : Option Nat),
          cats.foldlM (fun (p : Lattice × Option Nat) (q : Nat × Nat) =>
            p.1.processUnknownWord env.charDefs env.unk q.1 q.2 p.2 start (c :: cs) found)
              (lat cap len (es ++ acc), ue)
          = (do let r ← cats.foldlM (fun (p : List Edge × Option Nat) (q : Nat × Nat) => do
                      let r ← unkEdges env.charDefs env.unk start (c :: cs) found p.2 q.1 q.2
                      return (p.1 ++ r.1, r.2)) (acc, ue)
                return (lat cap len (es ++ r.1), r.2)) := by
        intro cats
        induction cats with
        | nil => intro acc ue; simp
        | cons q cats ih =>
          intro acc ue
          rw [List.foldlM_cons, List.foldlM_cons, processUnknownWord_lat hcap]
          cases unkEdges env.charDefs env.unk start (c :: cs) found ue q.1 q.2 with
          | error e => simp
          | ok r =>
            simp only [bind_ok, pure_eq_ok, List.append_assoc] at ih ⊢
            rw [ih]
      have := key cats.zipIdx [] ue
      rw [List.append_nil] at this
      rw [this]

theorem scanStep_lat {cap len start : Nat} {env : LatticeEnv} {text : Str} {es : List Edge}
    {ue : Option Nat} (hlen : len = blen text) (hcap : len ≤ cap) (hs : start < len) :
    Lattice.scanStep env text (lat cap len es, ue) start =
      (do let r ← genStep env text (es, ue) start
          return (lat cap len r.1, r.2)) := by
  unfold Lattice.scanStep genStep
  have hends : (lat cap len es).endsAt[start]? = some (endIds es start) := by
    simp [lat, latOf, List.getElem?_map, List.getElem?_range (show start < cap + 1 by omega)]
  simp only [hends, orPanic_some, bind_ok, endIds_isEmpty]
  by_cases hr : reached es start
  · simp only [hr, Bool.not_true, Bool.false_eq_true, if_false, if_true]
    cases hd : dropBytes text start with
    | none => simp
    | some suffix =>
      obtain ⟨p, hp, hb⟩ := dropBytes_eq_some.mp hd
      have hcap' : start + blen suffix ≤ cap := by
        have : blen text = start + blen suffix := by rw [hp, blen_append, hb]
        omega
      simp only [orPanic_some, bind_ok]
      unfold newEdges
      rw [addUserWords_lat hcap']
      cases userEdges env start suffix with
      | error e => simp
      | ok userNew =>
        simp only [bind_ok, pure_eq_ok]
        rw [addDictWords_lat hcap']
        cases dictEdges env.dict start suffix with
        | error e => simp
        | ok sysNew =>
          simp only [bind_ok, pure_eq_ok]
          have hf : (!userNew.isEmpty || !sysNew.isEmpty) = !(userNew ++ sysNew).isEmpty := by
            cases userNew <;> simp
          rw [hf, List.append_assoc]
          generalize (!(userNew ++ sysNew).isEmpty) = found
          split
          · rw [addUnknownWords_lat hcap']
            cases allUnkEdges env start suffix found ue with
            | error e => simp
            | ok r => simp
          · simp
  · simp only [Bool.not_eq_true] at hr
    simp [hr]

/-- Every lattice reachable through the public API has index vectors of equal length, which is
`capacity + 1` or (fresh lattice) zero. -/
structure LatInv (l : Lattice) : Prop where
  same : l.startsAt.length = l.endsAt.length
  size : l.startsAt.length = l.capacity + 1 ∨ (l.startsAt.length = 0 ∧ l.capacity = 0)

theorem latInv_default : LatInv Lattice.default := ⟨rfl, .inr ⟨rfl, rfl⟩⟩

theorem latInv_latOf (cap len : Nat) (es edges : List Edge) : LatInv (latOf cap len es edges) :=
  ⟨by simp [latOf], .inl (by simp [latOf])⟩

theorem resize_map_nil (xs : List (List Nat)) (n : Nat) (h : xs.length ≤ n) :
    resize (xs.map fun _ => []) n = List.replicate n [] := by
  unfold resize
  apply List.eq_replicate_iff.mpr
  constructor
  · simp; omega
  · intro b hb
    rcases List.mem_append.mp hb with hb | hb
    · have := List.mem_of_mem_take hb
      simp at this
      exact this.2
    · exact (List.mem_replicate.mp hb).2

theorem setCapacity_eq {l : Lattice} (h : LatInv l) {n : Nat} (hn : 0 < n) :
    l.setCapacity n = ⟨max l.capacity n, [], List.replicate (max l.capacity n + 1) [],
      List.replicate (max l.capacity n + 1) []⟩ := by
  have h1 := h.same
  have h2 := h.size
  unfold Lattice.setCapacity Lattice.clear
  simp only
  split
  · rename_i hlt
    have hm : max l.capacity n = n := by omega
    rw [hm, resize_map_nil _ _ (by omega), resize_map_nil _ _ (by omega)]
  · rename_i hge
    have hm : max l.capacity n = l.capacity := by omega
    have hl : l.startsAt.length = l.capacity + 1 := by omega
    rw [hm]
    congr 1
    · rw [← hl]; exact List.map_const' ..
    · rw [← hl, h1]; exact List.map_const' ..

theorem setText_eq {l : Lattice} (h : LatInv l) (env : LatticeEnv) {text : Str} (ht : text ≠ []) :
    l.setText env text =
      (do let es ← gen env text
          return lat (max l.capacity (blen text)) (blen text) es) := by
  have hpos := blen_pos ht
  unfold Lattice.setText
  simp only [setCapacity_eq h hpos, Lattice.addEdge, List.nil_append, List.length_nil,
    List.length_singleton, List.cons_append]
  generalize hcap : max l.capacity (blen text) = cap
  have hle : blen text ≤ cap := by omega
  simp only [eosNode, ne_eq, not_true_eq_false, if_false, pushAt, List.length_replicate]
  rw [if_pos (by omega), if_pos (by omega)]
  simp only [bind_ok]
  have hinit : (⟨cap, [Edge.default, Edge.default],
      (List.replicate (cap + 1) ([] : List Nat)).modify (blen text) (· ++ [1]),
      (List.replicate (cap + 1) ([] : List Nat)).modify 0 (· ++ [0])⟩ : Lattice) = lat cap (blen text) [] := by
    have hrep : List.replicate (cap + 1) ([] : List Nat) = (List.range (cap + 1)).map (fun _ => []) := by
      simp
    rw [hrep, modify_map_range, modify_map_range]
    simp [lat, latOf, startIds, endIds, idsWhere]
  rw [hinit]
  unfold gen
  have key : ∀ (xs : List Nat) (es : List Edge) (ue : Option Nat), (∀ x ∈ xs, x < blen text) →
      xs.foldlM (Lattice.scanStep env text) (lat cap (blen text) es, ue) =
      (do let r ← xs.foldlM (genStep env text) (es, ue)
          return (lat cap (blen text) r.1, r.2)) := by
    intro xs
    induction xs with
    | nil => intro es ue _; simp
    | cons x xs ih =>
      intro es ue hx
      rw [List.foldlM_cons, List.foldlM_cons, scanStep_lat rfl hle (hx x (by simp))]
      cases genStep env text (es, ue) x with
      | error e => simp
      | ok r => simp only [bind_ok, pure_eq_ok]; exact ih r.1 r.2 (fun y hy => hx y (by simp [hy]))
  rw [key _ _ _ (by simp)]
  simp only [pure_eq_ok]
  cases List.foldlM (genStep env text) ([], none) (List.range (blen text)) with
  | error e => simp
  | ok r => simp

end Verif.Model
