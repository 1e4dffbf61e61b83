import Verif.Model.PrefixDict
import Verif.Model.Connection
import Verif.Model.CharDef
import Verif.Model.Unknown
/-! Model of `lindera-core/src/viterbi.rs` and `lindera-core/src/mode.rs`. -/
namespace Verif.Model

/-- `EdgeType`, `lindera-core/src/viterbi.rs` lines 14-21 (`USER` and `INSERTED` are never constructed there). -/
inductive EdgeType where
  | known | unknown | user | inserted
  deriving DecidableEq, Repr

/-- `Edge`, `viterbi.rs` lines 26-38. `EdgeId(u32)` (line 24) and the `u32` indices are `Nat`:
texts below 4 GiB and fewer than 2^32 edges are assumed. -/
structure Edge where
  edgeType : EdgeType
  wordEntry : WordEntry
  pathCost : Int32
  leftEdge : Option Nat
  startIndex : Nat
  stopIndex : Nat
  kanjiOnly : Bool
  deriving DecidableEq, Repr

/-- derived `Edge::default`, `viterbi.rs` line 26. -/
def Edge.default : Edge := ⟨.known, WordEntry.default, 0, none, 0, 0, false⟩

/-- `Edge::num_chars`, `viterbi.rs` lines 42-44. The `u32` subtraction would overflow only if `stop < start`, which no
edge has. -/
def Edge.numChars (e : Edge) : Nat := (e.stopIndex - e.startIndex) / 3

/-- `EOS_NODE`, `viterbi.rs` line 12. -/
def eosNode : Nat := 1

/-- `Lattice`, `viterbi.rs` lines 47-53. -/
structure Lattice where
  capacity : Nat
  edges : List Edge
  startsAt : List (List Nat)
  endsAt : List (List Nat)
  deriving DecidableEq, Repr

/-- derived `Lattice::default`, `viterbi.rs` line 47. -/
def Lattice.default : Lattice := ⟨0, [], [], []⟩

/-- `is_kanji`, `viterbi.rs` lines 55-58. -/
def isKanji (c : Char) : Bool := 19968 ≤ c.toNat && c.toNat ≤ 40879

/-- `is_kanji_only`, `viterbi.rs` lines 60-62. -/
def isKanjiOnly (s : Str) : Bool := s.all isKanji

/-! ### `lindera-core/src/mode.rs` -/

/-- `Penalty`, `lindera-core/src/mode.rs` lines 10-16. `usize` thresholds are `Nat`. -/
structure Penalty where
  kanjiThreshold : Nat
  kanjiPenalty : Int32
  otherThreshold : Nat
  otherPenalty : Int32
  deriving DecidableEq, Repr

/-- `Penalty::default`, `mode.rs` lines 18-27. -/
def Penalty.default : Penalty := ⟨2, 3000, 7, 1700⟩

/-- `Penalty::penalty`, `mode.rs` lines 30-44. The cast `usize as i32` truncates and `i32` multiplication wraps (release profile). -/
def Penalty.penalty (p : Penalty) (e : Edge) : Int32 :=
  let n := e.numChars
  if n ≤ p.kanjiThreshold then 0
  else if e.kanjiOnly then Int32.ofNat (n - p.kanjiThreshold) * p.kanjiPenalty
  else if n > p.otherThreshold then Int32.ofNat (n - p.otherThreshold) * p.otherPenalty
  else 0

/-- `Mode`, `mode.rs` lines 47-53. -/
inductive Mode where
  | normal
  | decompose (p : Penalty)
  deriving DecidableEq, Repr

/-- `Mode::is_search`, `mode.rs` lines 56-61. -/
def Mode.isSearch : Mode → Bool
  | .normal => false
  | .decompose _ => true

/-- `Mode::penalty_cost`, `mode.rs` lines 62-67. -/
def Mode.penaltyCost : Mode → Edge → Int32
  | .normal, _ => 0
  | .decompose p, e => p.penalty e

/-- `Mode::from_str`, `mode.rs` lines 70-82. -/
def Mode.fromStr (s : Str) : R Mode :=
  if s = "normal".toList then .ok .normal
  else if s = "decompose".toList then .ok (.decompose Penalty.default)
  else .error (.err .modeError)

/-! ### The lattice -/

/-- `Lattice::clear`, `viterbi.rs` lines 65-73. -/
def Lattice.clear (l : Lattice) : Lattice :=
  { l with
    startsAt := l.startsAt.map fun _ => []
    endsAt := l.endsAt.map fun _ => []
    edges := [] }

/-- `Vec::resize(n, Vec::new())` (Rust core), as used in `viterbi.rs` lines 80-81. -/
def resize (xs : List (List Nat)) (n : Nat) : List (List Nat) :=
  xs.take n ++ List.replicate (n - xs.length) []

/-- `Lattice::set_capacity`, `viterbi.rs` lines 75-83. -/
def Lattice.setCapacity (l : Lattice) (textLen : Nat) : Lattice :=
  let l := l.clear
  if l.capacity < textLen then
    { l with
      capacity := textLen
      edges := []
      startsAt := resize l.startsAt (textLen + 1)
      endsAt := resize l.endsAt (textLen + 1) }
  else l

/-- `Lattice::add_edge`, `viterbi.rs` lines 235-239. -/
def Lattice.addEdge (l : Lattice) (e : Edge) : Lattice × Nat :=
  ({ l with edges := l.edges ++ [e] }, l.edges.length)

/-- `vec[i].push(x)` on a vector of vectors; panics if `i` is out of range. -/
def pushAt (xs : List (List Nat)) (i : Nat) (x : Nat) : R (List (List Nat)) :=
  if i < xs.length then .ok (xs.modify i (· ++ [x])) else .error .panic

/-- `Lattice::add_edge_in_lattice`, `viterbi.rs` lines 227-233. -/
def Lattice.addEdgeInLattice (l : Lattice) (e : Edge) : R Lattice := do
  let (l, id) := l.addEdge e
  let startsAt ← pushAt l.startsAt e.startIndex id
  let endsAt ← pushAt l.endsAt e.stopIndex id
  return { l with startsAt, endsAt }

/-- `i32::max_value()`, as in `viterbi.rs` line 129. -/
def i32Max : Int32 := 2147483647

/-- The loop over dictionary prefixes, `viterbi.rs` lines 122-134 (user dictionary) and 139-151 (system dictionary; identical body).
Returns the lattice and the new value of `found`. -/
def Lattice.addDictWords (l : Lattice) (d : PrefixDict) (start : Nat) (suffix : Str) (found : Bool) :
    R (Lattice × Bool) := do
  let ws ← d.prefix suffix
  ws.foldlM (init := (l, found)) fun (l, _) (prefixLen, wordEntry) => do
    let surface ← orPanic (takeBytes suffix prefixLen)
    let l ← l.addEdgeInLattice
      { edgeType := .known, wordEntry, leftEdge := none, startIndex := start,
        stopIndex := start + prefixLen, pathCost := i32Max, kanjiOnly := isKanjiOnly surface }
    return (l, true)

/-- The `for c in suffix.chars().skip(1)` loop counting the characters grouped with the first one,
`viterbi.rs` lines 193-200. The argument is `suffix.chars().skip(1)`, the result is what the loop adds to `unknown_word_num_chars`. -/
def countGroup (cd : CharDefs) (cat ord : Nat) : Str → R Nat
  | [] => .ok 0
  | c :: cs => do
    let cats ← cd.lookupCategories c
    if cats[ord]? = some cat then
      return (← countGroup cd cat ord cs) + 1
    else
      return 0

/-- The computation of `unknown_word_num_chars` at the head of `process_unknown_word`, `viterbi.rs` lines 188-202. -/
def unknownNumChars (cd : CharDefs) (cat ord : Nat) (suffix : Str) (found : Bool) : R Nat := do
  let data ← cd.lookupDefinition cat
  if data.invoke || !found then
    if data.group then
      return (← countGroup cd cat ord (suffix.drop 1)) + 1
    else
      return 1
  else
    return 0

/-- `Lattice::process_unknown_word`, `viterbi.rs` lines 177-225. -/
def Lattice.processUnknownWord (l : Lattice) (cd : CharDefs) (unk : UnkDict) (cat ord : Nat)
    (unknownWordIndex : Option Nat) (start : Nat) (suffix : Str) (found : Bool) :
    R (Lattice × Option Nat) := do
  let n ← unknownNumChars cd cat ord suffix found
  if n > 0 then
    let unknownWord := suffix.take n
    let ids ← unk.lookupWordIds cat
    let l ← ids.foldlM (init := l) fun l wordId => do
      let wordEntry ← unk.wordEntry wordId
      l.addEdgeInLattice
        { edgeType := .unknown, wordEntry, leftEdge := none, startIndex := start,
          stopIndex := start + blen unknownWord, pathCost := i32Max,
          kanjiOnly := isKanjiOnly unknownWord }
    return (l, some (start + blen unknownWord))
  else
    return (l, unknownWordIndex)

/-- Everything `Lattice::set_text` reads besides the text, `viterbi.rs` lines 88-93. -/
structure LatticeEnv where
  dict : PrefixDict
  userDict : Option PrefixDict
  charDefs : CharDefs
  unk : UnkDict
  mode : Mode

/-- The user dictionary lookup at one position, `viterbi.rs` lines 117-135. -/
def Lattice.addUserWords (l : Lattice) (env : LatticeEnv) (start : Nat) (suffix : Str) :
    R (Lattice × Bool) :=
  match env.userDict with
  | some d => l.addDictWords d start suffix false
  | none => .ok (l, false)

/-- The condition under which unknown words are looked at, `viterbi.rs` lines 154-156. -/
def unknownAllowed (mode : Mode) (unknownWordEnd : Option Nat) (start : Nat) : Bool :=
  mode.isSearch || (unknownWordEnd.map (fun index => decide (index ≤ start))).getD true

/-- The loop over the categories of the first character, `viterbi.rs` lines 157-171. -/
def Lattice.addUnknownWords (l : Lattice) (env : LatticeEnv) (unknownWordEnd : Option Nat)
    (start : Nat) (suffix : Str) (found : Bool) : R (Lattice × Option Nat) :=
  match suffix with
  | [] => .ok (l, unknownWordEnd)
  | firstChar :: _ => do
    let categories ← env.charDefs.lookupCategories firstChar
    categories.zipIdx.foldlM (init := (l, unknownWordEnd)) fun st cat =>
      st.1.processUnknownWord env.charDefs env.unk cat.1 cat.2 st.2 start suffix found

/-- One iteration of the loop over `start`, `viterbi.rs` lines 109-172. -/
def Lattice.scanStep (env : LatticeEnv) (text : Str) (st : Lattice × Option Nat) (start : Nat) :
    R (Lattice × Option Nat) := do
  let (l, unknownWordEnd) := st
  let ends ← orPanic l.endsAt[start]?
  if ends.isEmpty then
    return (l, unknownWordEnd)
  else
    let suffix ← orPanic (dropBytes text start)
    let (l, found) ← l.addUserWords env start suffix
    let (l, found) ← l.addDictWords env.dict start suffix found
    if unknownAllowed env.mode unknownWordEnd start then
      l.addUnknownWords env unknownWordEnd start suffix found
    else
      return (l, unknownWordEnd)

/-- `Lattice::set_text`, `viterbi.rs` lines 86-174. -/
def Lattice.setText (l : Lattice) (env : LatticeEnv) (text : Str) : R Lattice := do
  let len := blen text
  let l := l.setCapacity len
  let (l, startEdgeId) := l.addEdge Edge.default
  let (l, endEdgeId) := l.addEdge Edge.default
  if endEdgeId ≠ eosNode then .error .panic
  else
    let endsAt ← pushAt l.endsAt 0 startEdgeId
    let startsAt ← pushAt l.startsAt len endEdgeId
    let l := { l with endsAt, startsAt }
    let (l, _) ← (List.range len).foldlM (init := (l, none)) (Lattice.scanStep env text)
    return l

/-- `Iterator::min_by_key(|&(cost, _)| cost)` (Rust core): the *first* element with the least cost, as in `viterbi.rs` line 264. -/
def minByCost : List (Int32 × Nat) → Option (Int32 × Nat)
  | [] => none
  | x :: xs => some (xs.foldl (fun best y => if y.1 < best.1 then y else best) x)

/-- The closure computing the cost of arriving through one left edge, `viterbi.rs` lines 256-263 (`i32` additions wrap). -/
def Lattice.leftCost (l : Lattice) (m : ConnMatrix) (mode : Mode) (right : WordEntry) (leftId : Nat) :
    R (Int32 × Nat) := do
  let left ← orPanic l.edges[leftId]?
  let c ← m.cost left.wordEntry.rightId.toUInt32 right.leftId.toUInt32
  return (left.pathCost + c + mode.penaltyCost left, leftId)

/-- The body of the loop over right edges, `viterbi.rs` lines 251-270. -/
def Lattice.relax (m : ConnMatrix) (mode : Mode) (leftIds : List Nat) (l : Lattice) (rightId : Nat) :
    R Lattice := do
  let right ← orPanic l.edges[rightId]?
  let costs ← leftIds.mapM (l.leftCost m mode right.wordEntry)
  match minByCost costs with
  | some (bestCost, bestLeft) =>
    let edge : Edge :=
      { right with leftEdge := some bestLeft, pathCost := right.wordEntry.wordCost.toInt32 + bestCost }
    return { l with edges := l.edges.set rightId edge }
  | none => return l

/-- `Lattice::calculate_path_costs`, `viterbi.rs` lines 246-272. `starts_at` and `ends_at` do not change in the loop. -/
def Lattice.calculatePathCosts (l : Lattice) (m : ConnMatrix) (mode : Mode) : R Lattice :=
  (List.range l.startsAt.length).foldlM (init := l) fun l i => do
    let leftIds ← orPanic l.endsAt[i]?
    let rightIds ← orPanic l.startsAt[i]?
    rightIds.foldlM (init := l) (Lattice.relax m mode leftIds)

/-- The loop following `left_edge` from an edge, `viterbi.rs` lines 278-286, in the order of the pushes. The loop has no bound in Rust; `fuel`
counts iterations and running out of it is `diverge`. -/
def Lattice.followLeft (l : Lattice) : Nat → Nat → R (List (Nat × WordId))
  | 0, _ => .error .diverge
  | fuel + 1, id => do
    let edge ← orPanic l.edges[id]?
    match edge.leftEdge with
    | some left => return (edge.startIndex, edge.wordEntry.wordId) :: (← l.followLeft fuel left)
    | none => return []

/-- `Lattice::tokens_offset`, `viterbi.rs` lines 274-290. A chain without repetition has at most `edges.len()` elements. -/
def Lattice.tokensOffset (l : Lattice) : R (List (Nat × WordId)) := do
  let offsets ← l.followLeft (l.edges.length + 1) eosNode
  return offsets.reverse.dropLast

end Verif.Model
