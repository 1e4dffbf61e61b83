import Verif.Spec.Language
import Verif.Proofs.Basic
import Verif.Proofs.Ties
/-! The compiled tables and the source files allow the same segmentations. -/
namespace Verif.Model
open Verif.Spec

/-- The word of a lattice and the word of the source files are the same. `look` says what details a word id selects. -/
def Match (look : WordId → List Str → Prop) (w : Word) (it : Item) : Prop :=
  w.surface = it.surface ∧ w.entry.leftId = it.leftId ∧ w.entry.rightId = it.rightId ∧ w.entry.wordCost = it.cost ∧ look w.entry.wordId it.details

/-- The entry is in the user or the system dictionary. -/
def InAny (env : LatticeEnv) (s : Str) (e : WordEntry) : Prop := (∃ u, env.userDict = some u ∧ InDict u s e) ∨ InDict env.dict s e

/-- The compiled tables say what the source files say. -/
structure Rep (L : Lexicon) (env : LatticeEnv) (look : WordId → List Str → Prop) : Prop where
  known : ∀ s e, InAny env s e → ∃ it ∈ L.words, Match look ⟨s, e⟩ it
  known' : ∀ it ∈ L.words, ∃ e, InAny env it.surface e ∧ Match look ⟨it.surface, e⟩ it
  cats : ∀ c : Char, ∃ ids, env.charDefs.lookupCategories c = .ok ids ∧ ids.mapM env.charDefs.categoryName = .ok (categoriesOf L.defs c.toNat)
  defs : ∀ id name, env.charDefs.categoryName id = .ok name → ∃ data, definitionsOf L.defs name = [data] ∧ env.charDefs.lookupDefinition id = .ok data
  inj : ∀ id id' name, env.charDefs.categoryName id = .ok name → env.charDefs.categoryName id' = .ok name → id = id'
  unk : ∀ id name, env.charDefs.categoryName id = .ok name → ∃ ids, env.unk.lookupWordIds id = .ok ids ∧
    ids.mapM env.unk.wordEntry = .ok ((L.unk.filter fun l => l.name = name).map UnkLine.entry)
  unkShown : look ⟨4294967295, true⟩ ["UNK".toList]
  listed : ∀ s, ∃ es, EntriesFor env s es ∧ List.Forall₂ (fun e it => Match look ⟨s, e⟩ it) es (L.words.filter (·.surface = s))
  look : ∀ id d d', look id d → look id d' → d = d'

variable {L : Lexicon} {env : LatticeEnv} {look : WordId → List Str → Prop}

theorem Rep.dictWord (h : Rep L env look) {rest : Str} {w : Word} (hw : DictWordAt env rest w) : ∃ it, L.KnownAt rest it ∧ Match look w it := by
  obtain ⟨h1, h2, h3⟩ := hw
  obtain ⟨it, hi, hm⟩ := h.known _ _ h3
  exact ⟨it, ⟨hi, by rw [← hm.1]; exact h1, by rw [← hm.1]; exact h2⟩, hm⟩

theorem Rep.dictWord' (h : Rep L env look) {rest : Str} {it : Item} (hi : L.KnownAt rest it) : ∃ w, DictWordAt env rest w ∧ Match look w it := by
  obtain ⟨h1, h2, h3⟩ := hi
  obtain ⟨e, he, hm⟩ := h.known' it h1
  exact ⟨⟨it.surface, e⟩, ⟨h2, h3, he⟩, hm⟩

theorem Rep.someWord (h : Rep L env look) (rest : Str) : (∃ w, DictWordAt env rest w) ↔ ∃ it, L.KnownAt rest it :=
  ⟨fun ⟨_, hw⟩ => (h.dictWord hw).imp fun _ h => h.1, fun ⟨_, hi⟩ => (h.dictWord' hi).imp fun _ h => h.1⟩

theorem mapM_get {α β : Type} {f : α → R β} {xs : List α} {ys : List β} (h : xs.mapM f = .ok ys) (i : Nat) :
    (∀ x, xs[i]? = some x → ∃ y, ys[i]? = some y ∧ f x = .ok y) ∧ (∀ y, ys[i]? = some y → ∃ x, xs[i]? = some x ∧ f x = .ok y) := by
  rw [mapM_ok_iff] at h
  induction h generalizing i with
  | nil => simp
  | cons hxy _ ih =>
    cases i with
    | zero => simp [hxy]
    | succ i => simpa using ih i

/-- The category at a rank, in the tables and in the files. -/
theorem Rep.rank (h : Rep L env look) (c : Char) {ids : List Nat} (hc : env.charDefs.lookupCategories c = .ok ids) (i : Nat) :
    (∀ id, ids[i]? = some id → ∃ name, (categoriesOf L.defs c.toNat)[i]? = some name ∧ env.charDefs.categoryName id = .ok name) ∧
    (∀ name, (categoriesOf L.defs c.toNat)[i]? = some name → ∃ id, ids[i]? = some id ∧ env.charDefs.categoryName id = .ok name) := by
  obtain ⟨ids', h1, h2⟩ := h.cats c
  rw [hc] at h1
  cases h1
  exact mapM_get h2 i

theorem Rep.hasCategory (h : Rep L env look) {id : Nat} {name : Str} (hn : env.charDefs.categoryName id = .ok name) (ord : Nat) :
    Spec.hasCategory env.charDefs id ord = L.hasCategory name ord := by
  funext c
  obtain ⟨ids, hc, -⟩ := h.cats c
  obtain ⟨h1, h2⟩ := h.rank c hc ord
  unfold Spec.hasCategory Lexicon.hasCategory
  rw [hc]
  rw [Bool.eq_iff_iff]
  simp only [beq_iff_eq]
  constructor
  · intro hi
    obtain ⟨name', h3, h4⟩ := h1 id hi
    rw [hn] at h4
    cases h4
    exact h3
  · intro hi
    obtain ⟨id', h3, h4⟩ := h2 name hi
    rw [h.inj id id' name hn h4]
    exact h3

theorem Rep.unknownText (h : Rep L env look) {id : Nat} {name : Str} (hn : env.charDefs.categoryName id = .ok name) (ord : Nat) (g : Bool) (s : Str) :
    Spec.unknownText env.charDefs id ord g s = L.unknownText name ord g s := by
  cases s with
  | nil => rfl
  | cons c cs => simp only [Spec.unknownText, Lexicon.unknownText, h.hasCategory hn]

theorem Rep.proposes (h : Rep L env look) {rest : Str} {cat ord : Nat} {s : Str} (hp : Spec.Proposes env rest cat ord s) :
    ∃ name, env.charDefs.categoryName cat = .ok name ∧ L.Proposes rest name ord s := by
  obtain ⟨c, tail, cats, data, rfl, hc, hcat, hd, hinv, rfl⟩ := hp
  obtain ⟨name, h1, h2⟩ := (h.rank c hc ord).1 cat hcat
  obtain ⟨data', h3, h4⟩ := h.defs cat name h2
  rw [hd] at h4
  cases h4
  exact ⟨name, h2, c, tail, data, rfl, h1, h3, hinv.imp id (fun hn hk => hn ((h.someWord _).mpr hk)), h.unknownText h2 _ _ _⟩

theorem Rep.proposes' (h : Rep L env look) {rest : Str} {name : Str} {ord : Nat} {s : Str} (hp : L.Proposes rest name ord s) :
    ∃ cat, env.charDefs.categoryName cat = .ok name ∧ Spec.Proposes env rest cat ord s := by
  obtain ⟨c, tail, data, rfl, hcat, hd, hinv, rfl⟩ := hp
  obtain ⟨ids, hc, -⟩ := h.cats c
  obtain ⟨cat, h1, h2⟩ := (h.rank c hc ord).2 name hcat
  obtain ⟨data', h3, h4⟩ := h.defs cat name h2
  rw [hd] at h3
  cases h3
  exact ⟨cat, h2, c, tail, ids, data, rfl, hc, h1, h4, hinv.imp id (fun hn hk => hn ((h.someWord _).mp hk)), (h.unknownText h2 _ _ _).symm⟩

theorem Rep.unknownWord (h : Rep L env look) {rest : Str} {w : Word} (hw : UnknownWordAt env rest w) : ∃ it, L.UnknownAt rest it ∧ Match look w it := by
  obtain ⟨cat, ord, ids, id, hp, hids, hid, he⟩ := hw
  obtain ⟨name, hn, hp⟩ := h.proposes hp
  obtain ⟨ids', h1, h2⟩ := h.unk cat name hn
  rw [hids] at h1
  cases h1
  obtain ⟨i, hi⟩ := List.getElem?_of_mem hid
  obtain ⟨e, h3, h4⟩ := (mapM_get h2 i).1 id hi
  rw [he] at h4
  cases h4
  obtain ⟨l, h5, h6⟩ := List.mem_map.mp (List.mem_of_getElem? h3)
  simp only [List.mem_filter, decide_eq_true_eq] at h5
  refine ⟨l.item w.surface, ⟨name, ord, w.surface, l, hp, h5.1, h5.2, rfl⟩, ?_⟩
  unfold Match
  rw [← h6]
  exact ⟨rfl, rfl, rfl, rfl, h.unkShown⟩

theorem Rep.unknownWord' (h : Rep L env look) {rest : Str} {it : Item} (hi : L.UnknownAt rest it) : ∃ w, UnknownWordAt env rest w ∧ Match look w it := by
  obtain ⟨name, ord, s, l, hp, hl, hln, rfl⟩ := hi
  obtain ⟨cat, hn, hp⟩ := h.proposes' hp
  obtain ⟨ids, h1, h2⟩ := h.unk cat name hn
  have hm : l.entry ∈ (L.unk.filter fun l => l.name = name).map UnkLine.entry :=
    List.mem_map.mpr ⟨l, by simp [hl, hln], rfl⟩
  obtain ⟨i, hi⟩ := List.getElem?_of_mem hm
  obtain ⟨id, h3, h4⟩ := (mapM_get h2 i).2 _ hi
  exact ⟨⟨s, l.entry⟩, ⟨cat, ord, ids, id, hp, h1, List.mem_of_getElem? h3, h4⟩, rfl, rfl, rfl, rfl, h.unkShown⟩

theorem Rep.lastProposal (h : Rep L env look) (rest : Str) (k : Nat) (o : Option Nat) :
    Spec.LastProposal env rest k o ↔ L.LastProposal rest k o := by
  constructor
  · rintro (⟨cat, ord, s, hp, ho, hmax⟩ | ⟨ho, hno⟩)
    · obtain ⟨name, -, hp'⟩ := h.proposes hp
      refine .inl ⟨name, ord, s, hp', ho, fun name' ord' s' h' => ?_⟩
      obtain ⟨cat', -, h''⟩ := h.proposes' h'
      exact hmax _ _ _ h''
    · refine .inr ⟨ho, fun ⟨name, ord, s, hp⟩ => ?_⟩
      obtain ⟨cat, -, hp'⟩ := h.proposes' hp
      exact hno ⟨_, _, _, hp'⟩
  · rintro (⟨name, ord, s, hp, ho, hmax⟩ | ⟨ho, hno⟩)
    · obtain ⟨cat, -, hp'⟩ := h.proposes' hp
      refine .inl ⟨cat, ord, s, hp', ho, fun cat' ord' s' h' => ?_⟩
      obtain ⟨name', -, h''⟩ := h.proposes h'
      exact hmax _ _ _ h''
    · refine .inr ⟨ho, fun ⟨cat, ord, s, hp⟩ => ?_⟩
      obtain ⟨name, -, hp'⟩ := h.proposes hp
      exact hno ⟨_, _, _, hp'⟩

theorem Rep.wordAt (h : Rep L env look) {rest : Str} {k : Nat} {latest : Option Nat} {w : Word} (hw : Spec.WordAt env rest k latest w) :
    ∃ it, L.WordAt env.mode rest k latest it ∧ Match look w it := by
  rcases hw with hw | ⟨ho, hw⟩
  · obtain ⟨it, h1, h2⟩ := h.dictWord hw
    exact ⟨it, .inl h1, h2⟩
  · obtain ⟨it, h1, h2⟩ := h.unknownWord hw
    exact ⟨it, .inr ⟨ho, h1⟩, h2⟩

theorem Rep.wordAt' (h : Rep L env look) {rest : Str} {k : Nat} {latest : Option Nat} {it : Item} (hi : L.WordAt env.mode rest k latest it) :
    ∃ w, Spec.WordAt env rest k latest w ∧ Match look w it := by
  rcases hi with hi | ⟨ho, hi⟩
  · obtain ⟨w, h1, h2⟩ := h.dictWord' hi
    exact ⟨w, .inl h1, h2⟩
  · obtain ⟨w, h1, h2⟩ := h.unknownWord' hi
    exact ⟨w, .inr ⟨ho, h1⟩, h2⟩

theorem Rep.reach (h : Rep L env look) (reach : Nat → Prop) (rest : Str) (k : Nat) (latest : Option Nat) :
    (fun p => reach p ∨ ∃ w, Spec.WordAt env rest k latest w ∧ p = k + blen w.surface) =
    (fun p => reach p ∨ ∃ w, L.WordAt env.mode rest k latest w ∧ p = k + blen w.surface) := by
  funext p
  apply propext
  constructor
  · rintro (hr | ⟨w, hw, rfl⟩)
    · exact .inl hr
    · obtain ⟨it, h1, h2⟩ := h.wordAt hw
      exact .inr ⟨it, h1, by rw [h2.1]⟩
  · rintro (hr | ⟨it, hi, rfl⟩)
    · exact .inl hr
    · obtain ⟨w, h1, h2⟩ := h.wordAt' hi
      exact .inr ⟨w, h1, by rw [h2.1]⟩

theorem Rep.scan (h : Rep L env look) {text : Str} {k : Nat} {reach : Nat → Prop} {latest : Option Nat} :
    Spec.Scan env text k reach latest ↔ L.Scan env.mode text k reach latest := by
  constructor
  · intro hs
    induction hs with
    | start => exact .start
    | skip _ hr ih => exact .skip ih hr
    | closed _ hr ht hp ho ih => rw [h.reach]; exact .closed ih hr ht hp ho
    | opened _ hr ht hp ho hl ih => rw [h.reach]; exact .opened ih hr ht hp ho ((h.lastProposal _ _ _).mp hl)
  · intro hs
    induction hs with
    | start => exact .start
    | skip _ hr ih => exact .skip ih hr
    | closed _ hr ht hp ho ih => rw [← h.reach]; exact .closed ih hr ht hp ho
    | opened _ hr ht hp ho hl ih => rw [← h.reach]; exact .opened ih hr ht hp ho ((h.lastProposal _ _ _).mpr hl)

theorem Rep.segFrom (h : Rep L env look) {text : Str} {ws : List Word} : ∀ {pre : Str}, Spec.SegFrom env text pre ws →
    ∃ its, L.SegFrom env.mode text pre its ∧ List.Forall₂ (Match look) ws its := by
  induction ws with
  | nil => intro pre hs; exact ⟨[], hs, .nil⟩
  | cons w ws ih =>
    rintro pre ⟨⟨rest, reach, latest, ht, hsc, hw⟩, hs⟩
    obtain ⟨it, hi, hm⟩ := h.wordAt hw
    obtain ⟨its, h1, h2⟩ := ih hs
    refine ⟨it :: its, ⟨⟨rest, reach, latest, ht, h.scan.mp hsc, hi⟩, ?_⟩, .cons hm h2⟩
    rw [← hm.1]
    exact h1

theorem Rep.segFrom' (h : Rep L env look) {text : Str} {its : List Item} : ∀ {pre : Str}, L.SegFrom env.mode text pre its →
    ∃ ws, Spec.SegFrom env text pre ws ∧ List.Forall₂ (Match look) ws its := by
  induction its with
  | nil => intro pre hs; exact ⟨[], hs, .nil⟩
  | cons it its ih =>
    rintro pre ⟨⟨rest, reach, latest, ht, hsc, hi⟩, hs⟩
    obtain ⟨w, hw, hm⟩ := h.wordAt' hi
    obtain ⟨ws, h1, h2⟩ := ih hs
    refine ⟨w :: ws, ⟨⟨rest, reach, latest, ht, h.scan.mpr hsc, hw⟩, ?_⟩, .cons hm h2⟩
    rw [hm.1]
    exact h1

/-! ### Costs -/

/-- All context ids of the lexicon are inside the matrix, and the matrix has the costs of the file. -/
structure RepCost (L : Lexicon) (m : ConnMatrix) (F B : Nat) : Prop where
  words : ∀ it ∈ L.words, it.leftId.toNat < B ∧ it.rightId.toNat < F
  unk : ∀ l ∈ L.unk, l.left.toNat < B ∧ l.right.toNat < F
  zero : 0 < B ∧ 0 < F
  cost : ∀ f b : UInt16, f.toNat < F → b.toNat < B → m.cost f.toUInt32 b.toUInt32 = .ok (lastCost L.costs f.toNat b.toNat).toInt32

theorem segFrom_inside {m : ConnMatrix} {F B : Nat} (hc : RepCost L m F B) {mode : Mode} {text : Str} {its : List Item} : ∀ {pre : Str},
    L.SegFrom mode text pre its → ∀ it ∈ its, it.leftId.toNat < B ∧ it.rightId.toNat < F := by
  induction its with
  | nil => simp
  | cons it its ih =>
    rintro pre ⟨⟨rest, reach, latest, -, -, hi⟩, hs⟩ x hx
    rcases List.mem_cons.mp hx with rfl | hx
    · rcases hi with hi | ⟨-, name, rank, s, l, -, hl, -, rfl⟩
      · exact hc.words _ hi.1
      · exact hc.unk l hl
    · exact ih hs x hx

theorem conn_eq {m : ConnMatrix} {F B : Nat} (hc : RepCost L m F B) {a b : WordEntry} (ha : a.rightId.toNat < F) (hb : b.leftId.toNat < B) :
    Spec.conn m a b = L.conn a.rightId b.leftId := by
  unfold Spec.conn Lexicon.conn
  rw [hc.cost _ _ ha hb]
  simp

theorem costFrom_eq {m : ConnMatrix} {F B : Nat} (hc : RepCost L m F B) {mode : Mode} {ws : List Word} {its : List Item} (h : List.Forall₂ (Match look) ws its)
    (hin : ∀ it ∈ its, it.leftId.toNat < B ∧ it.rightId.toNat < F) : ∀ left : WordEntry, left.rightId.toNat < F →
    Spec.costFrom m mode left ws = L.costFrom mode left.rightId its := by
  induction h with
  | nil =>
    intro left hl
    exact conn_eq hc hl hc.zero.1
  | @cons w it ws its hm _ ih =>
    intro left hl
    obtain ⟨h1, h2, h3, h4, -⟩ := hm
    have hi := hin it (by simp)
    unfold Spec.costFrom Lexicon.costFrom
    rw [conn_eq hc hl (by rw [h2]; exact hi.1), h1, h2, h4, ih (fun x hx => hin x (by simp [hx])) w.entry (by rw [h3]; exact hi.2), h3]

/-! ### Places -/

theorem Match.unique (h : Rep L env look) {w : Word} {a b : Item} (ha : Match look w a) (hb : Match look w b) : a = b := by
  obtain ⟨h1, h2, h3, h4, h5⟩ := ha
  obtain ⟨g1, g2, g3, g4, g5⟩ := hb
  have := h.look _ _ _ h5 g5
  cases a; cases b
  simp_all

theorem Rep.writtenAt (h : Rep L env look) {rest : Str} {k : Nat} {latest : Option Nat} {w : Word} {p : Slot} (hw : Spec.WrittenAt env rest k latest w p) :
    ∃ it, L.WrittenAt env.mode rest k latest it p ∧ Match look w it := by
  cases p with
  | known i =>
    obtain ⟨h1, h2, es, h3, h4⟩ := hw
    obtain ⟨es', h5, h6⟩ := h.listed w.surface
    obtain rfl := EntriesFor.unique h3 h5
    obtain ⟨hl, hi⟩ := List.getElem?_eq_some_iff.mp h4
    have hlen := h6.length_eq
    have hl' : i < (L.words.filter (·.surface = w.surface)).length := by omega
    have hm := List.Forall₂.get h6 hl hl'
    simp only [List.get_eq_getElem, hi] at hm
    refine ⟨_, ⟨?_, ?_, ?_⟩, hm⟩
    · rw [← hm.1]; exact h1
    · rw [← hm.1]; exact h2
    · rw [← hm.1]; exact List.getElem?_eq_getElem hl'
  | unknown r i =>
    obtain ⟨ho, cat, ids, id, hp, hids, hid, he⟩ := hw
    obtain ⟨name, hn, hp⟩ := h.proposes hp
    obtain ⟨ids', h1, h2⟩ := h.unk cat name hn
    rw [hids] at h1
    cases h1
    obtain ⟨e, h3, h4⟩ := (mapM_get h2 i).1 id hid
    rw [he] at h4
    cases h4
    rw [List.getElem?_map] at h3
    cases hl : (L.unk.filter fun l => l.name = name)[i]? with
    | none => rw [hl] at h3; cases h3
    | some l =>
      rw [hl] at h3
      simp only [Option.map_some, Option.some.injEq] at h3
      refine ⟨l.item w.surface, ⟨ho, name, w.surface, l, hp, hl, rfl⟩, ?_⟩
      unfold Match
      rw [← h3]
      exact ⟨rfl, rfl, rfl, rfl, h.unkShown⟩

theorem Rep.writtenAt' (h : Rep L env look) {rest : Str} {k : Nat} {latest : Option Nat} {it : Item} {p : Slot} (hi : L.WrittenAt env.mode rest k latest it p) :
    ∃ w, Spec.WrittenAt env rest k latest w p ∧ Match look w it := by
  cases p with
  | known i =>
    obtain ⟨h1, h2, h3⟩ := hi
    obtain ⟨es, h5, h6⟩ := h.listed it.surface
    obtain ⟨hl, hi⟩ := List.getElem?_eq_some_iff.mp h3
    have hlen := h6.length_eq
    have hm := List.Forall₂.get h6 (i := i) (by omega) hl
    simp only [List.get_eq_getElem, hi] at hm
    exact ⟨_, ⟨h1, h2, es, h5, List.getElem?_eq_getElem (by omega)⟩, hm⟩
  | unknown r i =>
    obtain ⟨ho, name, s, l, hp, hl, rfl⟩ := hi
    obtain ⟨cat, hn, hp⟩ := h.proposes' hp
    obtain ⟨ids, h1, h2⟩ := h.unk cat name hn
    obtain ⟨id, h3, h4⟩ := (mapM_get h2 i).2 l.entry (by rw [List.getElem?_map, hl]; rfl)
    exact ⟨⟨s, l.entry⟩, ⟨ho, cat, ids, id, hp, h1, h3, h4⟩, rfl, rfl, rfl, rfl, h.unkShown⟩

theorem _root_.Verif.Spec.Slot.le_trans {p q r : Slot} (h : p.le q) (h' : q.le r) : p.le r := by
  cases p <;> cases q <;> cases r <;> simp only [Slot.le] at * <;> omega

theorem _root_.Verif.Spec.Slot.le_antisymm {p q : Slot} (h : p.le q) (h' : q.le p) : p = q := by
  cases p <;> cases q <;> simp only [Slot.le, Slot.known.injEq, Slot.unknown.injEq] at * <;> omega

theorem least_nat {P : Nat → Prop} (h : ∃ n, P n) : ∃ n, P n ∧ ∀ m, P m → n ≤ m := by
  obtain ⟨n, hn⟩ := h
  induction n using Nat.strongRecOn with
  | _ n ih =>
    by_cases hm : ∃ m, m < n ∧ P m
    · obtain ⟨m, h1, h2⟩ := hm
      exact ih m h1 h2
    · exact ⟨n, hn, fun m h => by by_contra hlt; exact hm ⟨m, by omega, h⟩⟩

/-- A first place. -/
theorem least_slot {P : Slot → Prop} (h : ∃ p, P p) : ∃ p, P p ∧ ∀ q, P q → p.le q := by
  by_cases hk : ∃ i, P (.known i)
  · obtain ⟨i, h1, h2⟩ := least_nat hk
    refine ⟨_, h1, fun q hq => ?_⟩
    cases q with
    | known j => exact h2 j hq
    | unknown r j => trivial
  · have hu : ∃ r i, P (.unknown r i) := by
      obtain ⟨p, hp⟩ := h
      cases p with
      | known i => exact absurd ⟨i, hp⟩ hk
      | unknown r i => exact ⟨r, i, hp⟩
    obtain ⟨r, h1, h2⟩ := least_nat hu
    obtain ⟨i, h3, h4⟩ := least_nat h1
    refine ⟨_, h3, fun q hq => ?_⟩
    cases q with
    | known j => exact absurd ⟨j, hq⟩ hk
    | unknown r' j =>
      have := h2 r' ⟨j, hq⟩
      simp only [Slot.le]
      rcases Nat.eq_or_lt_of_le this with rfl | hlt
      · exact .inr ⟨rfl, h4 j hq⟩
      · exact .inl hlt

theorem forall₂_surfaces {ws : List Word} {its : List Item} (h : List.Forall₂ (Match look) ws its) : (ws.map (·.surface)).flatten = (its.map (·.surface)).flatten := by
  induction h with
  | nil => rfl
  | cons hm _ ih => rw [List.map_cons, List.map_cons, List.flatten_cons, List.flatten_cons, ih, hm.1]

theorem forall₂_split {α β : Type} {r : α → β → Prop} {xs : List α} {a : List β} {v : β} {b : List β} (h : List.Forall₂ r xs (a ++ v :: b)) :
    ∃ A V B, xs = A ++ V :: B ∧ List.Forall₂ r A a ∧ r V v ∧ List.Forall₂ r B b := by
  induction a generalizing xs with
  | nil =>
    cases h with
    | cons h1 h2 => exact ⟨[], _, _, rfl, .nil, h1, h2⟩
  | cons y a ih =>
    cases h with
    | cons h1 h2 =>
      obtain ⟨A, V, B, rfl, h3, h4, h5⟩ := ih h2
      exact ⟨_ :: A, V, B, rfl, .cons h1 h3, h4, h5⟩

theorem forall₂_join {α β : Type} {r : α → β → Prop} {A : List α} {V : α} {B : List α} {a : List β} {v : β} {b : List β} (h1 : List.Forall₂ r A a) (h2 : r V v)
    (h3 : List.Forall₂ r B b) : List.Forall₂ r (A ++ V :: B) (a ++ v :: b) := by
  induction h1 with
  | nil => exact .cons h2 h3
  | cons h _ ih => exact .cons h ih

theorem segFrom_swap {text : Str} {V V' : Word} {B B' : List Word} : ∀ {A : List Word} {pre : Str}, Spec.SegFrom env text pre (A ++ V :: B) →
    Usable env text (pre ++ surfaces A) V' → Spec.SegFrom env text (pre ++ surfaces A ++ V'.surface) B' → Spec.SegFrom env text pre (A ++ V' :: B')
  | [], pre, _, h2, h3 => by
    simp only [surfaces_nil, List.append_nil] at h2 h3
    exact ⟨h2, h3⟩
  | w :: A, pre, h, h2, h3 => by
    refine ⟨h.1, segFrom_swap h.2 ?_ ?_⟩
    · simpa using h2
    · simpa using h3

theorem Rep.keepRule {m : ConnMatrix} {F B : Nat} (h : Rep L env look) (hc : RepCost L m F B) {text : Str} {ws : List Word} {its : List Item}
    (hs : Spec.Segmentation env text ws) (hm : List.Forall₂ (Match look) ws its) (hi : L.Segmentation env.mode text its) (hk : Spec.KeepRule env m text ws) :
    L.KeepRule env.mode text its := by
  intro a v b a' v' hits hseg hcost
  subst hits
  obtain ⟨A, V, B', rfl, hA, hV, hB⟩ := forall₂_split hm
  obtain ⟨ws', hs', hm'⟩ := h.segFrom' hseg
  obtain ⟨A', V', B'', rfl, hA', hV', hB''⟩ := forall₂_split hm'
  have hsur : surfaces A ++ V.surface = surfaces A' ++ V'.surface := by
    have e1 := surfaces_of_segmentation hs
    have e2 := surfaces_of_segmentation (ws := A' ++ V' :: B'') hs'
    have e3 : surfaces B' = surfaces B'' := (forall₂_surfaces hB).trans (forall₂_surfaces hB'').symm
    simp only [surfaces_append, surfaces_cons] at e1 e2
    rw [← e1, e3, ← List.append_assoc, ← List.append_assoc] at e2
    exact (List.append_cancel_right e2).symm
  have htail : Spec.SegFrom env text (surfaces A ++ V.surface) B' := by
    have := segFrom_split (a := A ++ [V]) (b := B') (pre := []) (by simpa [Spec.Segmentation] using hs)
    simpa using this
  -- replacing the word before the tail
  have key : ∀ X, Usable env text (surfaces A') X → Match look X v' → ToKeep env text (surfaces A) V X := by
    intro X hX hXm
    have hXs : X.surface = V'.surface := hXm.1.trans hV'.1.symm
    have hseg' : Spec.Segmentation env text (A' ++ X :: B') := by
      refine segFrom_swap (V' := X) hs' (by simpa using hX) ?_
      rw [List.nil_append, hXs, ← hsur]
      exact htail
    refine hk A V B' A' X rfl hseg' ?_
    unfold Spec.cost
    rw [costFrom_eq hc (forall₂_join hA' hXm hB) (segFrom_inside hc hseg) WordEntry.default hc.zero.2, costFrom_eq hc hm (segFrom_inside hc hi) WordEntry.default hc.zero.2]
    exact hcost
  have hu' : Usable env text (surfaces A') V' := by
    have := segFrom_split (a := A') (b := V' :: B'') (pre := []) hs'
    simpa using this.1
  have hpre : (a.map (·.surface)).flatten = surfaces A := (forall₂_surfaces hA).symm
  rw [hpre]
  rcases key V' hu' hV' with hlt | ⟨heq, rest, reach, latest, ht, hsc, p0, hp0, -⟩
  · left
    rw [← hV.1, ← hV'.1]
    exact hlt
  · right
    have hAA : surfaces A = surfaces A' := by
      rw [heq] at hsur
      exact List.append_cancel_right hsur
    refine ⟨by rw [← hV.1, ← hV'.1]; exact heq, rest, reach, latest, ht, h.scan.mp hsc, ?_⟩
    obtain ⟨p, hp, hmin⟩ := least_slot (P := fun p => Spec.WrittenAt env rest (blen (surfaces A)) latest V p) ⟨p0, hp0⟩
    refine ⟨p, ?_, fun p' hp' => ?_⟩
    · obtain ⟨it, h1, h2⟩ := h.writtenAt hp
      rw [Match.unique h hV h2]
      exact h1
    · obtain ⟨X, hX, hXm⟩ := h.writtenAt' hp'
      have := key X ⟨rest, reach, latest, by rw [← hAA]; exact ht, by rw [← hAA]; exact hsc, by rw [← hAA]; exact (WrittenAt.typed hX).wordAt⟩ hXm
      rcases this with hlt | ⟨-, rest2, reach2, latest2, ht2, hsc2, q, hq, hall⟩
      · rw [hXm.1, ← hV'.1, heq] at hlt
        omega
      · have hr : rest2 = rest := List.append_cancel_left (ht2.symm.trans ht)
        subst hr
        obtain ⟨rfl, -⟩ := hsc2.unique hsc
        exact Slot.le_trans (hmin q hq) (hall p' hX)

theorem Rep.usable (h : Rep L env look) {text pre : Str} {w : Word} (hu : Spec.Usable env text pre w) : ∃ it, L.Usable env.mode text pre it ∧ Match look w it := by
  obtain ⟨rest, reach, latest, ht, hsc, hw⟩ := hu
  obtain ⟨it, hi, hm⟩ := h.wordAt hw
  exact ⟨it, ⟨rest, reach, latest, ht, h.scan.mp hsc, hi⟩, hm⟩

theorem Rep.segTo (h : Rep L env look) {text pre : Str} {ws : List Word} (hs : Spec.SegTo env text pre ws) :
    ∃ its, L.Begins env.mode text its ∧ List.Forall₂ (Match look) ws its := by
  induction hs with
  | nil => exact ⟨[], fun a w b he => absurd he (by simp), .nil⟩
  | @snoc pre ws w hs hu ih =>
    obtain ⟨its, h1, h2⟩ := ih
    obtain ⟨it, h3, h4⟩ := h.usable hu
    refine ⟨its ++ [it], fun a v b he => ?_, forall₂_join h2 h4 .nil⟩
    rcases List.eq_nil_or_concat b with rfl | ⟨b', x, rfl⟩
    · obtain ⟨rfl, hx⟩ := List.append_inj' (t₁ := [it]) (t₂ := [v]) he rfl
      obtain rfl : it = v := by simpa using hx
      rw [← forall₂_surfaces h2, show (ws.map (·.surface)).flatten = pre from hs.surfaces_eq]
      exact h3
    · have he' : its ++ [it] = (a ++ v :: b') ++ [x] := by rw [he]; simp
      exact h1 a v b' (List.append_inj' he' rfl).1

theorem begins_inside {m : ConnMatrix} {F B : Nat} (hc : RepCost L m F B) {mode : Mode} {text : Str} {its : List Item} (h : L.Begins mode text its) :
    ∀ it ∈ its, it.leftId.toNat < B ∧ it.rightId.toNat < F := by
  intro it hi
  obtain ⟨a, b, rfl⟩ := List.append_of_mem hi
  obtain ⟨rest, reach, latest, -, -, hi⟩ := h a it b rfl
  rcases hi with hi | ⟨-, name, rank, s, l, -, hl, -, rfl⟩
  · exact hc.words _ hi.1
  · exact hc.unk l hl

theorem inner_eq {m : ConnMatrix} {F B : Nat} (hc : RepCost L m F B) {mode : Mode} {ws : List Word} {its : List Item} (h : List.Forall₂ (Match look) ws its)
    (hin : ∀ it ∈ its, it.leftId.toNat < B ∧ it.rightId.toNat < F) : ∀ left : WordEntry, left.rightId.toNat < F →
    Spec.inner m mode left ws = L.costBefore mode left.rightId its := by
  induction h with
  | nil => intro left hl; rfl
  | @cons w it ws its hm _ ih =>
    intro left hl
    obtain ⟨h1, h2, h3, h4, -⟩ := hm
    have hi := hin it (by simp)
    unfold Spec.inner Lexicon.costBefore
    rw [conn_eq hc hl (by rw [h2]; exact hi.1), h1, h2, h4, ih (fun x hx => hin x (by simp [hx])) w.entry (by rw [h3]; exact hi.2), h3]

theorem Rep.inRange {m : ConnMatrix} {F B : Nat} (h : Rep L env look) (hc : RepCost L m F B) {text : Str} (hf : L.CostsFit env.mode text) : Spec.InRange env m text := by
  intro pre ws hs x hx
  obtain ⟨its, h1, h2⟩ := h.segTo hs
  have := hf its h1
  rw [inner_eq hc h2 (begins_inside hc h1) WordEntry.default hc.zero.2]
  have e : WordEntry.default.rightId = 0 := rfl
  rw [e]
  omega

theorem Rep.segResult {m : ConnMatrix} {F B : Nat} (h : Rep L env look) (hc : RepCost L m F B) {text : Str} {ws : List Word}
    (hs : Spec.Segmentation env text ws) (hmin : Spec.InRange env m text → Cheapest env m text ws) (hk : Spec.InRange env m text → Spec.KeepRule env m text ws) :
    ∃ its, List.Forall₂ (Match look) ws its ∧ L.Segmentation env.mode text its ∧ (L.CostsFit env.mode text → L.Chosen env.mode text its) := by
  obtain ⟨its, h1, h2⟩ := h.segFrom hs
  refine ⟨its, h2, h1, fun hf => ⟨h1, fun its' hs' => ?_, h.keepRule hc hs h2 h1 (hk (h.inRange hc hf))⟩⟩
  obtain ⟨vs, h3, h4⟩ := h.segFrom' hs'
  have := hmin (h.inRange hc hf) vs h3
  unfold Spec.cost at this
  rw [costFrom_eq hc h2 (segFrom_inside hc h1) WordEntry.default hc.zero.2, costFrom_eq hc h4 (segFrom_inside hc hs') WordEntry.default hc.zero.2] at this
  exact this

/-- Among the segmentations kept for each last word, `ws` has the least wrapped cost. -/
def _root_.Verif.Spec.Lexicon.LastRule (L : Lexicon) (mode : Mode) (text : Str) (ws : List Item) : Prop :=
  ∀ us v, L.Segmentation mode text (us ++ [v]) → ∃ us', L.Segmentation mode text (us' ++ [v]) ∧ Int32.ofInt (L.cost mode ws) ≤ Int32.ofInt (L.cost mode (us' ++ [v]))

theorem Rep.lastRule {m : ConnMatrix} {F B : Nat} (h : Rep L env look) (hc : RepCost L m F B) {text : Str} {ws : List Word} {its : List Item} (hm : List.Forall₂ (Match look) ws its)
    (hs : L.Segmentation env.mode text its) (hl : LastRule env m text ws) : L.LastRule env.mode text its := by
  have cost_eq : ∀ {ws : List Word} {its : List Item}, List.Forall₂ (Match look) ws its → L.Segmentation env.mode text its → Spec.cost m env.mode ws = L.cost env.mode its :=
    fun hm hs => costFrom_eq hc hm (segFrom_inside hc hs) WordEntry.default hc.zero.2
  intro us v hv
  obtain ⟨vs, h1, h2⟩ := h.segFrom' hv
  obtain ⟨A, V, Bs, rfl, h3, h4, h5⟩ := forall₂_split h2
  cases h5
  obtain ⟨us', h6, h7⟩ := hl A V h1
  obtain ⟨its', h8, h9⟩ := h.segFrom h6
  obtain ⟨x, y, rfl, hx, hy⟩ : ∃ x y, its' = x ++ [y] ∧ List.Forall₂ (Match look) us' x ∧ Match look V y := by
    obtain ⟨x, y, z, rfl, g1, g2, g3⟩ := forall₂_split (r := fun a b => Match look b a) (List.Forall₂.flip h9)
    cases g3
    exact ⟨x, y, rfl, List.Forall₂.flip g1, g2⟩
  obtain rfl := Match.unique h hy h4
  refine ⟨x, h8, ?_⟩
  rw [← cost_eq hm hs, ← cost_eq h9 h8]
  exact h7

/-! ### Bounds -/

theorem item_cost_le (it : Item) : it.cost.toInt.natAbs ≤ 32768 := by
  have h1 := it.cost.toInt_lt
  have h2 := it.cost.le_toInt
  omega

theorem lexicon_conn_le (L : Lexicon) (r l : UInt16) : (L.conn r l).natAbs ≤ 32768 := by
  unfold Lexicon.conn
  generalize lastCost L.costs r.toNat l.toNat = c
  have h1 := c.toInt_lt
  have h2 := c.le_toInt
  omega

theorem Begins.tail {mode : Mode} {text : Str} {its : List Item} {it : Item} (h : L.Begins mode text (its ++ [it])) : L.Begins mode text its :=
  fun a w b he => h a w (b ++ [it]) (by rw [he]; simp)

theorem costBefore_snoc (L : Lexicon) (mode : Mode) (its : List Item) (it : Item) : ∀ r : UInt16,
    L.costBefore mode r (its ++ [it]) = L.costBefore mode r its + L.conn ((its.map (·.rightId)).getLast?.getD r) it.leftId + it.cost.toInt + penalty mode it.surface := by
  induction its with
  | nil => intro r; simp [Lexicon.costBefore]
  | cons v vs ih =>
    intro r
    simp only [List.cons_append, Lexicon.costBefore, ih, List.map_cons, List.getLast?_cons, Option.getD_some]
    omega

/-- Words cover the text: their number and lengths are bounded. -/
theorem Begins.surfaces {mode : Mode} {text : Str} {its : List Item} (h : L.Begins mode text its) : (∀ it ∈ its, it.surface ≠ []) ∧ (its.map (·.surface)).flatten <+: text := by
  refine ⟨fun it hi => ?_, ?_⟩
  · obtain ⟨a, b, rfl⟩ := List.append_of_mem hi
    obtain ⟨rest, reach, latest, -, -, hw⟩ := h a it b rfl
    rcases hw with hw | ⟨-, name, rank, s, l, ⟨c, tail, data, rfl, -, -, -, rfl⟩, -, -, rfl⟩
    · exact hw.2.1
    · simp [UnkLine.item, Lexicon.unknownText]
  · rcases List.eq_nil_or_concat its with rfl | ⟨a, it, rfl⟩
    · simp
    · obtain ⟨rest, reach, latest, ht, -, hw⟩ := h a it [] (by simp)
      have : it.surface <+: rest := by
        rcases hw with hw | ⟨-, name, rank, s, l, ⟨c, tail, data, rfl, -, -, -, rfl⟩, -, -, rfl⟩
        · exact hw.2.2
        · simp only [UnkLine.item, Lexicon.unknownText]
          split
          · exact List.cons_prefix_cons.mpr ⟨rfl, List.takeWhile_prefix _⟩
          · exact List.cons_prefix_cons.mpr ⟨rfl, List.nil_prefix⟩
      obtain ⟨post, hp⟩ := this
      exact ⟨post, by rw [ht, ← hp]; simp⟩

/-- A word of the lists or an unknown word. -/
def InLexicon (L : Lexicon) (it : Item) : Prop := it ∈ L.words ∨ ∃ l ∈ L.unk, ∃ s, it = l.item s

theorem Begins.inLexicon {mode : Mode} {text : Str} {its : List Item} (h : L.Begins mode text its) : ∀ it ∈ its, InLexicon L it := by
  intro it hi
  obtain ⟨a, b, rfl⟩ := List.append_of_mem hi
  obtain ⟨rest, reach, latest, -, -, hu⟩ := h a it b rfl
  rcases hu with hu | ⟨-, name, rank, s, l, -, hl, -, he⟩
  · exact .inl hu.1
  · exact .inr ⟨l, hl, s, he⟩

/-- The costs fit if the costs of words and connections are bounded and the text is not too long for these bounds. -/
theorem costsFit_of_bounds {mode : Mode} {text : Str} {W C : Nat} (hw : ∀ it, InLexicon L it → it.cost.toInt.natAbs ≤ W)
    (hc : ∀ r l, (r = 0 ∨ ∃ it, InLexicon L it ∧ it.rightId = r) → (∃ it, InLexicon L it ∧ it.leftId = l) → (L.conn r l).natAbs ≤ C) (h : (W + C) * text.length + maxPenalty mode * (blen text / 3) + 32768 < 2 ^ 31) : L.CostsFit mode text := by
  have key : ∀ its : List Item, L.Begins mode text its →
      (L.costBefore mode 0 its).natAbs ≤ (W + C) * its.length + maxPenalty mode * (blen (its.map (·.surface)).flatten / 3) := by
    intro its
    generalize hn : its.length = n
    rw [← hn]
    induction n generalizing its with
    | zero => intro _; simp [List.length_eq_zero_iff.mp hn, Lexicon.costBefore]
    | succ n ih =>
      rcases List.eq_nil_or_concat its with rfl | ⟨its, it, rfl⟩
      · simp at hn
      rw [List.concat_eq_append] at hn ⊢
      replace ih := ih its (by simpa using hn)
      intro hb
      have h1 := ih (Begins.tail hb)
      have hin := Begins.inLexicon hb
      have h2 : it.cost.toInt.natAbs ≤ W := hw it (hin it (by simp))
      have h3 := hc ((its.map (·.rightId)).getLast?.getD 0) it.leftId (by
        rcases List.eq_nil_or_concat its with rfl | ⟨vs, v, rfl⟩
        · exact .inl rfl
        · exact .inr ⟨v, hin v (by simp), by simp⟩) ⟨it, hin it (by simp), rfl⟩
      have h4 := penalty_le mode it.surface
      rw [costBefore_snoc]
      have h5 : maxPenalty mode * (blen (its.map (·.surface)).flatten / 3) + maxPenalty mode * (blen it.surface / 3) ≤
          maxPenalty mode * (blen ((its ++ [it]).map (·.surface)).flatten / 3) := by
        rw [← Nat.mul_add]
        refine Nat.mul_le_mul_left _ ?_
        simp only [List.map_append, List.map_cons, List.map_nil, List.flatten_append, List.flatten_cons, List.flatten_nil, List.append_nil, blen_append]
        omega
      have h6 : (W + C) * (its ++ [it]).length = (W + C) * its.length + (W + C) := by simp [Nat.mul_succ]
      rw [h6]
      omega
  intro ws hb
  have h1 := key ws hb
  obtain ⟨hne, post, hp⟩ := Begins.surfaces hb
  have h2 : ws.length ≤ text.length := by
    rw [← hp]
    have : ws.length ≤ (ws.map (·.surface)).flatten.length := by
      clear hp h1 hb
      induction ws with
      | nil => simp
      | cons w ws ih =>
        have := ih fun it hi => hne it (by simp [hi])
        have h0 := List.length_pos_iff.mpr (hne w (by simp))
        simp only [List.map_cons, List.flatten_cons, List.length_append, List.length_cons]
        omega
    simp only [List.length_append]
    omega
  have h3 : blen (ws.map (·.surface)).flatten / 3 ≤ blen text / 3 := by
    rw [← hp, blen_append]
    omega
  have h4 := Nat.mul_le_mul_left (W + C) h2
  have h5 := Nat.mul_le_mul_left (maxPenalty mode) h3
  omega

/-- The costs of a short sentence fit. -/
theorem costsFit_of_short {L : Lexicon} {mode : Mode} {text : Str} (h : NoOverflow mode text) : L.CostsFit mode text := by
  refine costsFit_of_bounds (W := 32768) (C := 32768) (fun it _ => item_cost_le it) (fun r l _ _ => lexicon_conn_le L r l) ?_
  unfold NoOverflow at h
  omega

theorem fit_short {L L' : Lexicon} {mode : Mode} {text : Str} (h : NoOverflow mode text) : L.CostsFit mode text ∧ L'.CostsFit mode text := ⟨costsFit_of_short h, costsFit_of_short h⟩

end Verif.Model
