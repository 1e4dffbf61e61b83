import Verif.Proofs.Tokenizer
import Verif.Proofs.CharDef
/-!
Two tokenizers that find the same words in a text, up to the numbers of the words, give the same tokens up to these numbers: a simulation, function by function.
-/
namespace Verif.Model

/-- Both computations return related values, or both fail in the same way. -/
def RR {α β : Type} (P : α → β → Prop) : R α → R β → Prop
  | .ok a, .ok b => P a b
  | .error e, .error e' => e = e'
  | _, _ => False

theorem RR.bind {α β γ δ : Type} {P : α → β → Prop} {Q : γ → δ → Prop} {x : R α} {y : R β} {f : α → R γ} {g : β → R δ} (h : RR P x y)
    (hf : ∀ a b, P a b → RR Q (f a) (g b)) : RR Q (x >>= f) (y >>= g) := by
  cases x with
  | error e =>
    cases y with
    | error e' => exact h
    | ok b => exact h.elim
  | ok a =>
    cases y with
    | error e' => exact h.elim
    | ok b => exact hf a b h

theorem RR.same {α : Type} {P : α → α → Prop} (hP : ∀ a, P a a) : ∀ x : R α, RR P x x
  | .ok a => hP a
  | .error _ => rfl

theorem RR.eq {α : Type} (x : R α) : RR (fun a b : α => a = b) x x := RR.same (fun _ => rfl) x

/-- As `RR.eq`, keeping the value. -/
theorem RR.bindSame {α γ δ : Type} {Q : γ → δ → Prop} (x : R α) {f : α → R γ} {g : α → R δ} (hf : ∀ a, x = .ok a → RR Q (f a) (g a)) : RR Q (x >>= f) (x >>= g) := by
  cases x with
  | error e => exact rfl
  | ok a => exact hf a rfl

theorem RR.foldlM {α β σ τ : Type} {P : σ → τ → Prop} {E : α → β → Prop} {f : σ → α → R σ} {g : τ → β → R τ}
    (hf : ∀ s t a b, P s t → E a b → RR P (f s a) (g t b)) {as : List α} {bs : List β} (h : List.Forall₂ E as bs) :
    ∀ {s t}, P s t → RR P (as.foldlM f s) (bs.foldlM g t) := by
  induction h with
  | nil => intro s t hs; exact hs
  | cons hab _ ih =>
    intro s t hs
    rw [List.foldlM_cons, List.foldlM_cons]
    exact (hf _ _ _ _ hs hab).bind fun _ _ h => ih h

theorem RR.mapM {α β γ δ : Type} {P : γ → δ → Prop} {E : α → β → Prop} {f : α → R γ} {g : β → R δ} (hf : ∀ a b, E a b → RR P (f a) (g b)) {as : List α} {bs : List β}
    (h : List.Forall₂ E as bs) : RR (List.Forall₂ P) (as.mapM f) (bs.mapM g) := by
  induction h with
  | nil => exact List.Forall₂.nil
  | cons hab _ ih =>
    rw [List.mapM_cons, List.mapM_cons]
    exact (hf _ _ hab).bind fun _ _ h => ih.bind fun _ _ hs => List.Forall₂.cons h hs

theorem RR.ok {α β : Type} {P : α → β → Prop} {x : R α} {y : R β} (h : RR P x y) {a : α} (ha : x = .ok a) : ∃ b, y = .ok b ∧ P a b := by
  subst ha
  cases y with
  | error e => exact h.elim
  | ok b => exact ⟨b, rfl, h⟩

theorem forall₂_refl {α : Type} {P : α → α → Prop} {xs : List α} (h : ∀ x ∈ xs, P x x) : List.Forall₂ P xs xs := by
  induction xs with
  | nil => exact .nil
  | cons x xs ih => exact .cons (h x (by simp)) (ih fun y hy => h y (by simp [hy]))

variable {ρ : WordId → WordId → Prop}

/-- The same word entry up to its number. -/
structure SameEntry (ρ : WordId → WordId → Prop) (e e' : WordEntry) : Prop where
  cost : e.wordCost = e'.wordCost
  left : e.leftId = e'.leftId
  right : e.rightId = e'.rightId
  id : ρ e.wordId e'.wordId

/-- The same edge; the numbers of the words are not compared. -/
structure SameEdge (e e' : Edge) : Prop where
  type : e.edgeType = e'.edgeType
  path : e.pathCost = e'.pathCost
  leftEdge : e.leftEdge = e'.leftEdge
  start : e.startIndex = e'.startIndex
  stop : e.stopIndex = e'.stopIndex
  kanji : e.kanjiOnly = e'.kanjiOnly
  cost : e.wordEntry.wordCost = e'.wordEntry.wordCost
  left : e.wordEntry.leftId = e'.wordEntry.leftId
  right : e.wordEntry.rightId = e'.wordEntry.rightId

/-- The same lattice up to the numbers of the words (except for the first two edges, which are no words), and what makes these two never come up as words. -/
structure SameLattice (ρ : WordId → WordId → Prop) (l l' : Lattice) : Prop where
  capacity : l.capacity = l'.capacity
  starts : l.startsAt = l'.startsAt
  ends : l.endsAt = l'.endsAt
  edges : List.Forall₂ SameEdge l.edges l'.edges
  ids : ∀ i e e', 2 ≤ i → l.edges[i]? = some e → l'.edges[i]? = some e' → ρ e.wordEntry.wordId e'.wordEntry.wordId
  two : 2 ≤ l.edges.length
  noEos : ∀ xs ∈ l.endsAt, 1 ∉ xs
  noBos : ∀ xs ∈ l.startsAt, 0 ∉ xs
  leftEdges : ∀ e ∈ l.edges, e.leftEdge ≠ some 1
  bos : ∀ e, l.edges[0]? = some e → e.leftEdge = none

theorem SameLattice.get {l l' : Lattice} (h : SameLattice ρ l l') {i : Nat} {e : Edge} (he : l.edges[i]? = some e) : ∃ e', l'.edges[i]? = some e' ∧ SameEdge e e' := by
  have := h.edges.length_eq
  obtain ⟨hi, rfl⟩ := List.getElem?_eq_some_iff.mp he
  refine ⟨l'.edges[i]'(by omega), List.getElem?_eq_getElem _, ?_⟩
  exact (List.forall₂_iff_get.mp h.edges).2 i hi (by omega)

theorem SameLattice.getNone {l l' : Lattice} (h : SameLattice ρ l l') {i : Nat} (he : l.edges[i]? = none) : l'.edges[i]? = none := by
  have := h.edges.length_eq
  rw [List.getElem?_eq_none_iff] at he ⊢
  omega

theorem SameLattice.orPanic {l l' : Lattice} (h : SameLattice ρ l l') (i : Nat) :
    RR (fun e e' => SameEdge e e' ∧ l.edges[i]? = some e ∧ l'.edges[i]? = some e') (orPanic l.edges[i]?) (orPanic l'.edges[i]?) := by
  cases he : l.edges[i]? with
  | none => rw [h.getNone he]; exact rfl
  | some e =>
    obtain ⟨e', he', hs⟩ := h.get he
    rw [he']
    exact ⟨hs, rfl, rfl⟩

theorem mem_pushAt {xs ys : List (List Nat)} {i x : Nat} (h : pushAt xs i x = .ok ys) {b : Nat} (hb : ∀ zs ∈ xs, b ∉ zs) (hx : b ≠ x) : ∀ zs ∈ ys, b ∉ zs := by
  unfold pushAt at h
  split at h
  · cases h
    intro zs hz
    rw [List.mem_iff_getElem?] at hz
    obtain ⟨j, hj⟩ := hz
    rw [List.getElem?_modify] at hj
    cases hx' : xs[j]? with
    | none => rw [hx'] at hj; cases hj
    | some a =>
      rw [hx'] at hj
      have ha := hb a (List.mem_of_getElem? hx')
      by_cases hij : i = j
      · simp only [if_pos hij, Option.map_eq_map, Option.map_some, Option.some.injEq] at hj
        subst hj
        simp [ha, hx]
      · simp only [if_neg hij, Option.map_eq_map, Option.map_some, Option.some.injEq] at hj
        subst hj
        exact ha
  · cases h

theorem SameLattice.addEdgeInLattice {l l' : Lattice} (h : SameLattice ρ l l') {e e' : Edge} (he : SameEdge e e') (hid : ρ e.wordEntry.wordId e'.wordEntry.wordId)
    (hl : e.leftEdge = none) : RR (SameLattice ρ) (l.addEdgeInLattice e) (l'.addEdgeInLattice e') := by
  have hlen := h.edges.length_eq
  have htwo := h.two
  unfold Lattice.addEdgeInLattice Lattice.addEdge
  dsimp only
  rw [← h.starts, ← h.ends, ← he.start, ← he.stop, ← hlen]
  refine RR.bindSame _ fun sa hsa => RR.bindSame _ fun ea hea => ?_
  refine { capacity := h.capacity, starts := rfl, ends := rfl, edges := ?_, ids := ?_, two := ?_, noEos := ?_, noBos := ?_, leftEdges := ?_, bos := ?_ }
  · exact forall₂_append h.edges (.cons he .nil)
  · intro i x x' hi hx hx'
    by_cases hlt : i < l.edges.length
    · rw [List.getElem?_append_left hlt] at hx
      rw [List.getElem?_append_left (by omega)] at hx'
      exact h.ids i x x' hi hx hx'
    · rw [List.getElem?_append_right (by omega)] at hx hx'
      rw [hlen] at hx
      have : i - l'.edges.length = 0 := by
        by_contra hne
        rw [List.getElem?_eq_none (by simp; omega)] at hx
        cases hx
      rw [this] at hx hx'
      cases hx
      cases hx'
      exact hid
  · simp; omega
  · exact mem_pushAt hea h.noEos (by omega)
  · exact mem_pushAt hsa h.noBos (by omega)
  · intro x hx
    rw [List.mem_append] at hx
    rcases hx with hx | hx
    · exact h.leftEdges x hx
    · rw [List.mem_singleton] at hx
      rw [hx, hl]
      simp
  · intro x hx
    rw [List.getElem?_append_left (by omega)] at hx
    exact h.bos x hx

/-- Found words: the same prefixes, the same entries. -/
abbrev SameFound (ρ : WordId → WordId → Prop) := List.Forall₂ fun (p q : Nat × WordEntry) => p.1 = q.1 ∧ SameEntry ρ p.2 q.2

/-- The words of the user dictionary at a position. -/
def userPrefix (env : LatticeEnv) (s : Str) : R (List (Nat × WordEntry)) :=
  match env.userDict with
  | some d => d.prefix s
  | none => .ok []

/-- Two environments that agree, up to the numbers of words, on what is found in a sentence. -/
structure SameEnv (ρ : WordId → WordId → Prop) (env env' : LatticeEnv) (text : Str) : Prop where
  mode : env.mode = env'.mode
  charDefs : env.charDefs = env'.charDefs
  unk : env.unk = env'.unk
  unkIds : ∀ e ∈ env.unk.costs, ρ e.wordId e.wordId
  dict : ∀ k s, dropBytes text k = some s → RR (SameFound ρ) (env.dict.prefix s) (env'.dict.prefix s)
  user : ∀ k s, dropBytes text k = some s → RR (SameFound ρ) (userPrefix env s) (userPrefix env' s)

/-- The lattice and a further value that is the same. -/
def With (ρ : WordId → WordId → Prop) {α : Type} (x y : Lattice × α) : Prop := SameLattice ρ x.1 y.1 ∧ x.2 = y.2

theorem SameLattice.addFound {l l' : Lattice} (h : SameLattice ρ l l') {ws ws' : List (Nat × WordEntry)} (hw : SameFound ρ ws ws') (start : Nat) (suffix : Str) (found : Bool) :
    RR (With ρ)
      (ws.foldlM (init := (l, found)) fun (l, _) (prefixLen, wordEntry) => do
        let surface ← Model.orPanic (takeBytes suffix prefixLen)
        let l ← l.addEdgeInLattice
          { edgeType := .known, wordEntry, leftEdge := none, startIndex := start,
            stopIndex := start + prefixLen, pathCost := i32Max, kanjiOnly := isKanjiOnly surface }
        return (l, true))
      (ws'.foldlM (init := (l', found)) fun (l, _) (prefixLen, wordEntry) => do
        let surface ← Model.orPanic (takeBytes suffix prefixLen)
        let l ← l.addEdgeInLattice
          { edgeType := .known, wordEntry, leftEdge := none, startIndex := start,
            stopIndex := start + prefixLen, pathCost := i32Max, kanjiOnly := isKanjiOnly surface }
        return (l, true)) := by
  refine RR.foldlM (P := With ρ) ?_ hw ⟨h, rfl⟩
  rintro ⟨s, sb⟩ ⟨t, tb⟩ ⟨n, e⟩ ⟨n', e'⟩ hst ⟨hn, he⟩
  cases hn
  dsimp only
  refine RR.bindSame _ fun surface _ => ?_
  refine (hst.1.addEdgeInLattice (e := ⟨.known, e, i32Max, none, start, start + n, isKanjiOnly surface⟩) (e' := ⟨.known, e', i32Max, none, start, start + n, isKanjiOnly surface⟩)
    ⟨rfl, rfl, rfl, rfl, rfl, rfl, he.cost, he.left, he.right⟩ he.id rfl).bind ?_
  intro a b hab
  exact ⟨hab, rfl⟩

theorem SameLattice.addDictWords {l l' : Lattice} (h : SameLattice ρ l l') {d d' : PrefixDict} (start : Nat) (suffix : Str) (found : Bool)
    (hd : RR (SameFound ρ) (d.prefix suffix) (d'.prefix suffix)) : RR (With ρ) (l.addDictWords d start suffix found) (l'.addDictWords d' start suffix found) := by
  unfold Lattice.addDictWords
  exact hd.bind fun ws ws' hw => h.addFound hw start suffix found

theorem addUserWords_eq (l : Lattice) (env : LatticeEnv) (start : Nat) (suffix : Str) :
    l.addUserWords env start suffix = (do
      let ws ← userPrefix env suffix
      ws.foldlM (init := (l, false)) fun (l, _) (prefixLen, wordEntry) => do
        let surface ← Model.orPanic (takeBytes suffix prefixLen)
        let l ← l.addEdgeInLattice
          { edgeType := .known, wordEntry, leftEdge := none, startIndex := start,
            stopIndex := start + prefixLen, pathCost := i32Max, kanjiOnly := isKanjiOnly surface }
        return (l, true)) := by
  unfold Lattice.addUserWords userPrefix
  cases env.userDict with
  | none => rfl
  | some d => rfl

theorem SameLattice.addUserWords {l l' : Lattice} (h : SameLattice ρ l l') {env env' : LatticeEnv} (start : Nat) (suffix : Str)
    (hd : RR (SameFound ρ) (userPrefix env suffix) (userPrefix env' suffix)) : RR (With ρ) (l.addUserWords env start suffix) (l'.addUserWords env' start suffix) := by
  rw [addUserWords_eq, addUserWords_eq]
  exact hd.bind fun ws ws' hw => h.addFound hw start suffix false

theorem SameLattice.processUnknownWord {l l' : Lattice} (h : SameLattice ρ l l') (cd : CharDefs) (unk : UnkDict) (hu : ∀ e ∈ unk.costs, ρ e.wordId e.wordId)
    (cat ord : Nat) (o : Option Nat) (start : Nat) (suffix : Str) (found : Bool) :
    RR (With ρ) (l.processUnknownWord cd unk cat ord o start suffix found) (l'.processUnknownWord cd unk cat ord o start suffix found) := by
  unfold Lattice.processUnknownWord
  refine RR.bindSame _ fun n _ => ?_
  split
  · refine RR.bindSame _ fun ids _ => ?_
    refine (RR.foldlM (P := SameLattice ρ) (E := (· = ·)) ?_ (forall₂_refl fun _ _ => rfl) h).bind fun a b hab => ⟨hab, rfl⟩
    rintro s t a _ hst rfl
    refine RR.bindSame _ fun e he => ?_
    have hm : e ∈ unk.costs := by
      unfold UnkDict.wordEntry at he
      rw [orPanic_eq_ok] at he
      exact List.mem_of_getElem? he
    exact hst.addEdgeInLattice ⟨rfl, rfl, rfl, rfl, rfl, rfl, rfl, rfl, rfl⟩ (hu e hm) rfl
  · exact ⟨h, rfl⟩

theorem SameLattice.addUnknownWords {l l' : Lattice} (h : SameLattice ρ l l') {env env' : LatticeEnv} {text : Str} (he : SameEnv ρ env env' text) (o : Option Nat)
    (start : Nat) (suffix : Str) (found : Bool) : RR (With ρ) (l.addUnknownWords env o start suffix found) (l'.addUnknownWords env' o start suffix found) := by
  unfold Lattice.addUnknownWords
  cases suffix with
  | nil => exact ⟨h, rfl⟩
  | cons c cs =>
    dsimp only
    rw [← he.charDefs, ← he.unk]
    refine RR.bindSame _ fun cats _ => ?_
    refine RR.foldlM (P := With ρ) (E := (· = ·)) ?_ (forall₂_refl fun _ _ => rfl) ⟨h, rfl⟩
    rintro ⟨s, so⟩ ⟨t, tw⟩ a _ ⟨hst, hso⟩ rfl
    cases hso
    exact hst.processUnknownWord _ _ he.unkIds _ _ _ _ _ _

theorem SameLattice.scanStep {env env' : LatticeEnv} {text : Str} (he : SameEnv ρ env env' text) {st st' : Lattice × Option Nat} (h : With ρ st st') (start : Nat) :
    RR (With ρ) (Lattice.scanStep env text st start) (Lattice.scanStep env' text st' start) := by
  obtain ⟨l, o⟩ := st
  obtain ⟨l', o'⟩ := st'
  obtain ⟨h, ho⟩ := h
  cases ho
  unfold Lattice.scanStep
  dsimp only at h ⊢
  rw [← h.ends, ← he.mode]
  refine RR.bindSame _ fun xs _ => ?_
  split
  · exact ⟨h, rfl⟩
  · refine RR.bindSame _ fun suffix hs => ?_
    rw [orPanic_eq_ok] at hs
    refine (h.addUserWords start suffix (he.user start suffix hs)).bind ?_
    rintro ⟨a, af⟩ ⟨b, bf⟩ ⟨hab, hf⟩
    cases hf
    refine (hab.addDictWords start suffix af (he.dict start suffix hs)).bind ?_
    rintro ⟨a', af'⟩ ⟨b', bf'⟩ ⟨hab', hf'⟩
    cases hf'
    dsimp only
    split
    · exact hab'.addUnknownWords he o start suffix af'
    · exact ⟨hab', rfl⟩

/-- Lattices with the same shape before `set_text`: nothing else of them is used. -/
structure SameBuffers (l l' : Lattice) : Prop where
  capacity : l.capacity = l'.capacity
  starts : l.startsAt.length = l'.startsAt.length
  ends : l.endsAt.length = l'.endsAt.length

theorem SameLattice.shape {l l' : Lattice} (h : SameLattice ρ l l') : SameBuffers l l' := ⟨h.capacity, by rw [h.starts], by rw [h.ends]⟩

theorem setCapacity_same {l l' : Lattice} (h : SameBuffers l l') (n : Nat) :
    l.setCapacity n = l'.setCapacity n ∧ (l.setCapacity n).edges = [] ∧ (∀ xs ∈ (l.setCapacity n).startsAt, xs = []) ∧ ∀ xs ∈ (l.setCapacity n).endsAt, xs = [] := by
  have clear : ∀ {xs ys : List (List Nat)}, xs.length = ys.length → xs.map (fun _ => ([] : List Nat)) = ys.map fun _ => [] := by
    intro xs ys h
    simp [h]
  have e : l.clear = l'.clear := by
    unfold Lattice.clear
    rw [clear h.starts, clear h.ends, h.capacity]
  have hr : ∀ (xs : List (List Nat)) (n : Nat), (∀ x ∈ xs, x = []) → ∀ x ∈ resize xs n, x = [] := by
    intro xs n hx x hm
    unfold resize at hm
    rw [List.mem_append] at hm
    rcases hm with hm | hm
    · exact hx x (List.mem_of_mem_take hm)
    · exact (List.mem_replicate.mp hm).2
  have c1 : ∀ x ∈ l.clear.startsAt, x = [] := by simp [Lattice.clear]
  have c2 : ∀ x ∈ l.clear.endsAt, x = [] := by simp [Lattice.clear]
  refine ⟨by unfold Lattice.setCapacity; rw [e], ?_, ?_, ?_⟩
  · unfold Lattice.setCapacity
    dsimp only
    split <;> rfl
  · unfold Lattice.setCapacity
    dsimp only
    split
    · exact hr _ _ c1
    · exact c1
  · unfold Lattice.setCapacity
    dsimp only
    split
    · exact hr _ _ c2
    · exact c2

theorem SameLattice.setText {env env' : LatticeEnv} {text : Str} (he : SameEnv ρ env env' text) {l l' : Lattice} (h : SameBuffers l l') :
    RR (SameLattice ρ) (l.setText env text) (l'.setText env' text) := by
  obtain ⟨h1, h2, h3, h4⟩ := setCapacity_same h (blen text)
  unfold Lattice.setText Lattice.addEdge
  dsimp only
  rw [← h1, h2]
  dsimp only [List.nil_append, List.length_nil, List.length_cons]
  split
  · exact rfl
  · refine RR.bindSame _ fun ea hea => RR.bindSame _ fun sa hsa => ?_
    refine RR.bind (P := With ρ) (RR.foldlM (P := With ρ) (E := (· = ·)) ?_ (forall₂_refl fun _ _ => rfl) ?_) ?_
    · rintro s t a _ hst rfl
      exact SameLattice.scanStep he hst a
    · refine ⟨{ capacity := rfl, starts := rfl, ends := rfl, edges := ?_, ids := ?_, two := ?_, noEos := ?_, noBos := ?_, leftEdges := ?_, bos := ?_ }, rfl⟩
      · exact forall₂_refl fun _ _ => ⟨rfl, rfl, rfl, rfl, rfl, rfl, rfl, rfl, rfl⟩
      · intro i e e' hi hx
        rw [List.getElem?_eq_none (by simpa using hi)] at hx
        cases hx
      · simp
      · exact mem_pushAt hea (fun zs hz => by rw [h4 zs hz]; simp) (by decide)
      · exact mem_pushAt hsa (fun zs hz => by rw [h3 zs hz]; simp) (by decide)
      · intro e hx
        simp only [List.cons_append, List.nil_append, List.mem_cons, List.not_mem_nil, or_false, or_self] at hx
        rw [hx]; simp [Edge.default]
      · intro e hx
        simp at hx
        rw [← hx]; rfl
    · rintro ⟨a, _⟩ ⟨b, _⟩ ⟨hab, _⟩
      exact hab

theorem penaltyCost_same {e e' : Edge} (h : SameEdge e e') (mode : Mode) : mode.penaltyCost e = mode.penaltyCost e' := by
  cases mode with
  | normal => rfl
  | decompose p =>
    unfold Mode.penaltyCost Penalty.penalty Edge.numChars
    dsimp only
    rw [h.start, h.stop, h.kanji]

theorem minByCost_mem {xs : List (Int32 × Nat)} {y : Int32 × Nat} (h : minByCost xs = some y) : y ∈ xs := by
  cases xs with
  | nil => cases h
  | cons x xs =>
    simp only [minByCost, Option.some.injEq] at h
    subst h
    have : ∀ (xs : List (Int32 × Nat)) (b : Int32 × Nat), xs.foldl (fun best y => if y.1 < best.1 then y else best) b = b ∨
        xs.foldl (fun best y => if y.1 < best.1 then y else best) b ∈ xs := by
      intro xs
      induction xs with
      | nil => intro b; left; rfl
      | cons z zs ih =>
        intro b
        rw [List.foldl_cons]
        rcases ih (if z.1 < b.1 then z else b) with h | h
        · rw [h]
          split
          · right; simp
          · left; rfl
        · right
          exact List.mem_cons_of_mem _ h
    rcases this xs x with h | h
    · rw [h]; simp
    · exact List.mem_cons_of_mem _ h

theorem SameLattice.relax {l l' : Lattice} (h : SameLattice ρ l l') {m m' : ConnMatrix} (hm : ∀ a b, m.cost a b = m'.cost a b) (mode : Mode) (leftIds : List Nat)
    (hleft : 1 ∉ leftIds) (rightId : Nat) (hright : rightId ≠ 0) :
    RR (fun a b => SameLattice ρ a b ∧ a.startsAt = l.startsAt ∧ a.endsAt = l.endsAt) (Lattice.relax m mode leftIds l rightId) (Lattice.relax m' mode leftIds l' rightId) := by
  unfold Lattice.relax
  refine (h.orPanic rightId).bind ?_
  rintro r r' ⟨hr, hr1, hr2⟩
  have hc : RR (List.Forall₂ fun (p q : Int32 × Nat) => p = q ∧ p.2 ∈ leftIds) (leftIds.mapM (l.leftCost m mode r.wordEntry)) (leftIds.mapM (l'.leftCost m' mode r'.wordEntry)) := by
    refine RR.mapM (E := fun a b => a = b ∧ a ∈ leftIds) ?_ (forall₂_refl fun x hx => ⟨rfl, hx⟩)
    rintro a _ ⟨rfl, ha⟩
    unfold Lattice.leftCost
    refine (h.orPanic a).bind ?_
    rintro e e' ⟨hee, -, -⟩
    rw [hee.right, hr.left, hm]
    refine RR.bindSame _ fun c _ => ?_
    refine ⟨?_, ha⟩
    rw [hee.path, penaltyCost_same hee]
  refine hc.bind ?_
  intro cs cs' hcs
  have e : cs = cs' ∧ ∀ p ∈ cs, p.2 ∈ leftIds := by
    clear hc
    induction hcs with
    | nil => simp
    | cons h _ ih =>
      refine ⟨by rw [h.1, ih.1], fun p hp => ?_⟩
      rcases List.mem_cons.mp hp with rfl | hp
      · exact h.2
      · exact ih.2 p hp
  obtain ⟨rfl, hin⟩ := e
  cases hmin : minByCost cs with
  | none => exact ⟨h, rfl, rfl⟩
  | some p =>
    obtain ⟨c, b⟩ := p
    have hb : b ∈ leftIds := hin _ (minByCost_mem hmin)
    rw [hr.cost]
    refine ⟨{ capacity := h.capacity, starts := h.starts, ends := h.ends, edges := ?_, ids := ?_, two := ?_, noEos := h.noEos, noBos := h.noBos, leftEdges := ?_, bos := ?_ }, rfl, rfl⟩
    · dsimp only
      rw [List.forall₂_iff_get]
      have hlen := h.edges.length_eq
      refine ⟨by simpa using hlen, fun i h1 h2 => ?_⟩
      simp only [List.get_eq_getElem, List.getElem_set]
      split
      · exact ⟨hr.type, rfl, rfl, hr.start, hr.stop, hr.kanji, hr.cost, hr.left, hr.right⟩
      · simp only [List.length_set] at h1 h2
        exact (List.forall₂_iff_get.mp h.edges).2 i h1 h2
    · intro i x x' hi hx hx'
      dsimp only at hx hx'
      rw [List.getElem?_set] at hx hx'
      by_cases hir : rightId = i
      · rw [if_pos hir] at hx hx'
        have hlen := h.edges.length_eq
        have := (List.getElem?_eq_some_iff.mp hr1).1
        rw [if_pos (by omega)] at hx hx'
        cases hx
        cases hx'
        dsimp only
        subst hir
        exact h.ids _ _ _ hi hr1 hr2
      · rw [if_neg hir] at hx hx'
        exact h.ids i x x' hi hx hx'
    · simpa using h.two
    · intro x hx
      rcases List.mem_or_eq_of_mem_set hx with hx | rfl
      · exact h.leftEdges x hx
      · dsimp only
        intro hcon
        cases hcon
        exact hleft hb
    · intro x hx
      dsimp only at hx
      rw [List.getElem?_set, if_neg hright] at hx
      exact h.bos x hx

theorem SameLattice.relaxAll {m m' : ConnMatrix} (hm : ∀ a b, m.cost a b = m'.cost a b) (mode : Mode) (leftIds : List Nat) (hleft : 1 ∉ leftIds) :
    ∀ (rightIds : List Nat), 0 ∉ rightIds → ∀ {l l' : Lattice}, SameLattice ρ l l' →
      RR (fun a b => SameLattice ρ a b ∧ a.startsAt = l.startsAt ∧ a.endsAt = l.endsAt) (rightIds.foldlM (Lattice.relax m mode leftIds) l) (rightIds.foldlM (Lattice.relax m' mode leftIds) l')
  | [], _, _, _, h => ⟨h, rfl, rfl⟩
  | r :: rs, h0, l, l', h => by
    rw [List.foldlM_cons, List.foldlM_cons]
    simp only [List.mem_cons, not_or] at h0
    refine (h.relax hm mode leftIds hleft r (fun h => h0.1 h.symm)).bind ?_
    rintro a b ⟨hab, h1, h2⟩
    have := SameLattice.relaxAll hm mode leftIds hleft rs h0.2 hab
    rw [h1, h2] at this
    exact this

theorem SameLattice.calculatePathCosts {l l' : Lattice} (h : SameLattice ρ l l') {m m' : ConnMatrix} (hm : ∀ a b, m.cost a b = m'.cost a b) (mode : Mode) :
    RR (SameLattice ρ) (l.calculatePathCosts m mode) (l'.calculatePathCosts m' mode) := by
  unfold Lattice.calculatePathCosts
  rw [← h.starts]
  refine RR.foldlM (P := SameLattice ρ) (E := (· = ·)) ?_ (forall₂_refl fun _ _ => rfl) h
  rintro s t i _ hst rfl
  rw [← hst.ends, ← hst.starts]
  refine RR.bindSame _ fun ls hls => RR.bindSame _ fun rs hrs => ?_
  rw [orPanic_eq_ok] at hls hrs
  have := SameLattice.relaxAll hm mode ls (hst.noEos ls (List.mem_of_getElem? hls)) rs (hst.noBos rs (List.mem_of_getElem? hrs)) hst
  revert this
  generalize List.foldlM (Lattice.relax m mode ls) s rs = x
  generalize List.foldlM (Lattice.relax m' mode ls) t rs = y
  intro h
  cases x <;> cases y
  · exact h
  · exact h
  · exact h
  · exact h.1

/-- Found offsets: the same starts, the words related. -/
abbrev SameOffsets (ρ : WordId → WordId → Prop) := List.Forall₂ fun (p q : Nat × WordId) => p.1 = q.1 ∧ ρ p.2 q.2

theorem SameLattice.followLeft {l l' : Lattice} (h : SameLattice ρ l l') : ∀ (fuel id : Nat), id ≠ 1 → RR (SameOffsets ρ) (l.followLeft fuel id) (l'.followLeft fuel id)
  | 0, _, _ => rfl
  | fuel + 1, id, hid => by
    unfold Lattice.followLeft
    refine (h.orPanic id).bind ?_
    rintro e e' ⟨he, h1, h2⟩
    rw [← he.leftEdge]
    cases hl : e.leftEdge with
    | none => exact List.Forall₂.nil
    | some left =>
      dsimp only
      have hne : left ≠ 1 := fun hh => h.leftEdges e (List.mem_of_getElem? h1) (by rw [hl, hh])
      refine (h.followLeft fuel left hne).bind ?_
      intro xs ys hxy
      refine List.Forall₂.cons ⟨he.start, h.ids id e e' ?_ h1 h2⟩ hxy
      by_contra hlt
      have : id = 0 := by omega
      subst this
      rw [h.bos e h1] at hl
      cases hl

theorem forall₂_reverse' {α β : Type} {P : α → β → Prop} {xs : List α} {ys : List β} (h : List.Forall₂ P xs ys) : List.Forall₂ P xs.reverse ys.reverse := by
  induction h with
  | nil => exact .nil
  | cons h _ ih =>
    rw [List.reverse_cons, List.reverse_cons]
    exact forall₂_append ih (.cons h .nil)

theorem SameLattice.tokensOffset {l l' : Lattice} (h : SameLattice ρ l l') : RR (SameOffsets ρ) l.tokensOffset l'.tokensOffset := by
  unfold Lattice.tokensOffset
  rw [← h.edges.length_eq]
  have : RR (fun xs ys => SameOffsets ρ xs.reverse.dropLast ys.reverse.dropLast) (l.followLeft (l.edges.length + 1) eosNode) (l'.followLeft (l.edges.length + 1) eosNode) := by
    unfold Lattice.followLeft
    refine (h.orPanic eosNode).bind ?_
    rintro e e' ⟨he, h1, h2⟩
    rw [← he.leftEdge]
    cases hl : e.leftEdge with
    | none => exact List.Forall₂.nil
    | some left =>
      dsimp only
      have hne : left ≠ 1 := fun hh => h.leftEdges e (List.mem_of_getElem? h1) (by rw [hl, hh])
      refine (h.followLeft _ left hne).bind ?_
      intro xs ys hxy
      show SameOffsets ρ (List.dropLast (List.reverse (_ :: xs))) (List.dropLast (List.reverse (_ :: ys)))
      rw [List.reverse_cons, List.reverse_cons, List.dropLast_concat, List.dropLast_concat]
      exact forall₂_reverse' hxy
  exact this.bind fun _ _ h => h

/-- The same token up to the number of its word. -/
structure SameToken (ρ : WordId → WordId → Prop) (t t' : Token) : Prop where
  text : t.text = t'.text
  start : t.byteStart = t'.byteStart
  stop : t.byteEnd = t'.byteEnd
  position : t.position = t'.position
  positionLength : t.positionLength = t'.positionLength
  details : t.details = none ∧ t'.details = none
  id : ρ t.wordId t'.wordId

structure SameState (ρ : WordId → WordId → Prop) (s s' : TokState) : Prop where
  tokens : List.Forall₂ (SameToken ρ) s.tokens s'.tokens
  shape : SameBuffers s.lattice s'.lattice
  position : s.position = s'.position
  bytePosition : s.bytePosition = s'.bytePosition

theorem emitTokens_same (sentence : Str) {xs ys : List (Nat × WordId)} (h : SameOffsets ρ xs ys) :
    ∀ {s s' : TokState}, SameState ρ s s' → RR (SameState ρ) (emitTokens sentence s xs) (emitTokens sentence s' ys) := by
  induction h with
  | nil => intro s s' hs; exact hs
  | @cons p q xs ys hpq hrest ih =>
    obtain ⟨a, w⟩ := p
    obtain ⟨a', w'⟩ := q
    obtain ⟨ha, hw⟩ := hpq
    cases ha
    intro s s' hs
    have hstop : tokenStop sentence xs = tokenStop sentence ys := by
      cases hrest with
      | nil => rfl
      | cons h _ => exact h.1
    unfold emitTokens
    dsimp only
    rw [hstop, ← hs.bytePosition, ← hs.position]
    refine RR.bindSame _ fun surface _ => ih ?_
    exact ⟨forall₂_append hs.tokens (.cons ⟨rfl, rfl, rfl, rfl, rfl, ⟨rfl, rfl⟩, hw⟩ .nil), hs.shape, rfl, rfl⟩

/-- Two tokenizers that find the same words in every sentence of a text, up to the numbers of the words, tokenize it alike. -/
theorem tokenize_same {t t' : Tokenizer} {text : Str} (hmode : t.mode = t'.mode) (hm : ∀ a b, t.dictionary.costMatrix.cost a b = t'.dictionary.costMatrix.cost a b)
    (h : ∀ s ∈ splitInclusive isDelimiter text, SameEnv ρ t.env t'.env s) : RR (List.Forall₂ (SameToken ρ)) (t.tokenize text) (t'.tokenize text) := by
  unfold Tokenizer.tokenize
  refine RR.bind (P := SameState ρ) ?_ fun _ _ h => h.tokens
  refine RR.foldlM (P := SameState ρ) (E := fun a b => a = b ∧ SameEnv ρ t.env t'.env a) ?_ (forall₂_refl fun x hx => ⟨rfl, h x hx⟩) ⟨.nil, ⟨rfl, rfl, rfl⟩, rfl, rfl⟩
  rintro s s' sentence _ hs ⟨rfl, he⟩
  unfold Tokenizer.sentenceStep
  refine (SameLattice.setText he hs.shape).bind fun l l' hl => ?_
  rw [← hmode]
  refine (hl.calculatePathCosts hm t.mode).bind fun l l' hl => hl.tokensOffset.bind fun xs ys hxy => emitTokens_same sentence hxy ⟨hs.tokens, hl.shape, hs.position, hs.bytePosition⟩

end Verif.Model
