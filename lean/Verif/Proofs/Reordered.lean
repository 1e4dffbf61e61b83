import Verif.Spec.Reordered
import Verif.Proofs.Renamed
/-! Lexicons with the same meaning choose the same segmentations. -/
namespace Verif.Spec
open Verif.Model

namespace SameMeaning
variable {L L' : Lexicon} {mode : Mode} {text : Str}

theorem present (h : SameMeaning L L') {name : Str} : L'.Present name ↔ L.Present name := by
  unfold Lexicon.Present
  simp only [h.categories]

theorem mem (h : SameMeaning L L') {w : Item} : w ∈ L'.words ↔ w ∈ L.words := by
  have := congrArg (w ∈ ·) (h.words w.surface)
  simpa using this

theorem known (h : SameMeaning L L') (rest : Str) (w : Item) : L'.KnownAt rest w ↔ L.KnownAt rest w := by
  unfold Lexicon.KnownAt
  rw [h.mem]

theorem unknownText (h : SameMeaning L L') (name : Str) (rank : Nat) (group : Bool) (rest : Str) : L'.unknownText name rank group rest = L.unknownText name rank group rest := by
  cases rest with
  | nil => rfl
  | cons c cs =>
    simp only [Lexicon.unknownText]
    have : L'.hasCategory name rank = L.hasCategory name rank := by
      funext d
      simp only [Lexicon.hasCategory, h.categories]
    rw [this]

theorem proposes (h : SameMeaning L L') (rest name : Str) (rank : Nat) (s : Str) : L'.Proposes rest name rank s ↔ L.Proposes rest name rank s := by
  unfold Lexicon.Proposes
  simp only [h.known, h.categories, h.unknownText]
  constructor <;> rintro ⟨c, tail, data, h1, h2, h3, h4⟩ <;> refine ⟨c, tail, data, h1, h2, ?_, h4⟩
  · rw [← h.flags _ ⟨c, List.mem_of_getElem? h2⟩]; exact h3
  · rw [h.flags _ ⟨c, List.mem_of_getElem? h2⟩]; exact h3

theorem proposes_present {rest name : Str} {rank : Nat} {s : Str} (hp : L.Proposes rest name rank s) : L.Present name := by
  obtain ⟨c, tail, data, h1, h2, -⟩ := hp
  exact ⟨c, List.mem_of_getElem? h2⟩

theorem last (h : SameMeaning L L') (rest : Str) (k : Nat) (o : Option Nat) : L'.LastProposal rest k o ↔ L.LastProposal rest k o := by
  unfold Lexicon.LastProposal
  simp only [h.proposes]

theorem slot (h : SameMeaning L L') (rest : Str) (k : Nat) (latest : Option Nat) (w : Item) (p : Slot) : L'.WrittenAt mode rest k latest w p ↔ L.WrittenAt mode rest k latest w p := by
  cases p with
  | known i => simp only [Lexicon.WrittenAt, h.words]
  | unknown r i =>
    simp only [Lexicon.WrittenAt, h.proposes]
    refine and_congr_right fun _ => ?_
    constructor <;> rintro ⟨name, s, l, h1, h2, h3⟩ <;> refine ⟨name, s, l, h1, ?_, h3⟩
    · rw [← h.unknown _ (proposes_present h1)]; exact h2
    · rw [h.unknown _ (proposes_present h1)]; exact h2

theorem word (h : SameMeaning L L') (rest : Str) (k : Nat) (latest : Option Nat) (w : Item) : L'.WordAt mode rest k latest w ↔ L.WordAt mode rest k latest w := by
  rw [wordAt_written, wordAt_written]
  simp only [h.slot]

theorem scan (h : SameMeaning L L') {k : Nat} {R : Nat → Prop} {l : Option Nat} : L'.Scan mode text k R l ↔ L.Scan mode text k R l := by
  constructor <;> intro hs
  · induction hs with
    | start => exact .start
    | skip _ hn ih => exact .skip ih hn
    | closed _ hr ht hp ho ih =>
      have := Lexicon.Scan.closed ih hr ht hp ho
      simp only [← h.word] at this
      exact this
    | opened _ hr ht hp ho hl ih =>
      have := Lexicon.Scan.opened ih hr ht hp ho ((h.last _ _ _).mp hl)
      simp only [← h.word] at this
      exact this
  · induction hs with
    | start => exact .start
    | skip _ hn ih => exact .skip ih hn
    | closed _ hr ht hp ho ih =>
      have := Lexicon.Scan.closed ih hr ht hp ho
      simp only [h.word] at this
      exact this
    | opened _ hr ht hp ho hl ih =>
      have := Lexicon.Scan.opened ih hr ht hp ho ((h.last _ _ _).mpr hl)
      simp only [h.word] at this
      exact this

theorem seg (h : SameMeaning L L') {ws : List Item} : ∀ {pre : Str}, L'.SegFrom mode text pre ws ↔ L.SegFrom mode text pre ws := by
  induction ws with
  | nil => intro pre; exact Iff.rfl
  | cons w ws ih =>
    intro pre
    simp only [Lexicon.SegFrom, Lexicon.Usable, h.scan, h.word, ih]

theorem used {rest : Str} {k : Nat} {latest : Option Nat} {w : Item} (hw : L.WordAt mode rest k latest w) : L.LeftUsed w.leftId ∧ L.RightUsed w.rightId := by
  rcases hw with ⟨h1, -⟩ | ⟨-, name, rank, s, l, -, hl, -, rfl⟩
  · exact ⟨.inr (.inl ⟨w, h1, rfl⟩), .inr (.inl ⟨w, h1, rfl⟩)⟩
  · exact ⟨.inr (.inr ⟨l, hl, rfl⟩), .inr (.inr ⟨l, hl, rfl⟩)⟩

theorem costFrom (h : SameMeaning L L') {ws : List Item} : ∀ {pre : Str} {right : UInt16}, L.SegFrom mode text pre ws → L.RightUsed right → L'.costFrom mode right ws = L.costFrom mode right ws := by
  induction ws with
  | nil => intro pre right _ hr; exact h.costs _ _ hr (.inl rfl)
  | cons w ws ih =>
    rintro pre right ⟨⟨rest, reach, latest, -, -, hw⟩, hs⟩ hr
    simp only [Lexicon.costFrom]
    rw [h.costs _ _ hr (used hw).1, ih hs (used hw).2]

theorem costBefore (h : SameMeaning L L') {ws : List Item} : ∀ {right : UInt16}, (∀ w ∈ ws, L.LeftUsed w.leftId ∧ L.RightUsed w.rightId) → L.RightUsed right →
    L'.costBefore mode right ws = L.costBefore mode right ws := by
  induction ws with
  | nil => intro _ _ _; rfl
  | cons w ws ih =>
    intro right hw hr
    simp only [Lexicon.costBefore]
    rw [h.costs _ _ hr (hw w (by simp)).1, ih (fun u hu => hw u (by simp [hu])) (hw w (by simp)).2]

/-- The costs of a sentence fit for both. -/
theorem fits (h : SameMeaning L L') (hf : L.CostsFit mode text) : L'.CostsFit mode text := by
  intro ws hb
  have hb' : L.Begins mode text ws := fun a w b e => by
    have := hb a w b e
    simpa only [Lexicon.Usable, h.scan, h.word] using this
  rw [h.costBefore (fun w hw => ?_) (.inl rfl)]
  · exact hf ws hb'
  · obtain ⟨a, b, e⟩ := List.append_of_mem hw
    obtain ⟨rest, reach, latest, -, -, hw⟩ := hb' a w b e
    exact used hw

theorem chosen (h : SameMeaning L L') {ws : List Item} (hc : L.Chosen mode text ws) : L'.Chosen mode text ws := by
  have cost : ∀ {vs}, L.Segmentation mode text vs → L'.cost mode vs = L.cost mode vs := fun hv => h.costFrom hv (.inl rfl)
  refine ⟨h.seg.mpr hc.segmentation, fun vs hv => ?_, fun a v b a' v' he hv hcost => ?_⟩
  · rw [cost hc.segmentation, cost (h.seg.mp hv)]
    exact hc.cheapest vs (h.seg.mp hv)
  · rw [cost hc.segmentation, cost (h.seg.mp hv)] at hcost
    rcases hc.keep a v b a' v' he (h.seg.mp hv) hcost with hk | ⟨e, rest, reach, latest, ht, hsc, p, hp, hall⟩
    · exact .inl hk
    · exact .inr ⟨e, rest, reach, latest, ht, h.scan.mpr hsc, p, (h.slot ..).mpr hp, fun p' hp' => hall p' ((h.slot ..).mp hp')⟩

end SameMeaning

/-! ### Reordered files -/

theorem lastCost_unique {f b : Nat} : ∀ {ls : List CostLine}, (ls.Pairwise fun l m => ¬(l.forward = m.forward ∧ l.backward = m.backward)) → ∀ {l : CostLine}, l ∈ ls → l.forward = f → l.backward = b → lastCost ls f b = l.cost
  | [], _, l, hl, _, _ => by simp at hl
  | m :: ls, hp, l, hl, hf, hb => by
    rw [List.pairwise_cons] at hp
    simp only [lastCost]
    rcases List.mem_cons.mp hl with rfl | hl
    · rw [if_neg, if_pos ⟨hf, hb⟩]
      simp only [List.any_eq_true, decide_eq_true_eq, not_exists, not_and]
      intro m hm e1 e2
      exact hp.1 m hm ⟨hf.trans e1.symm, hb.trans e2.symm⟩
    · rw [if_pos, lastCost_unique hp.2 hl hf hb]
      simp only [List.any_eq_true, decide_eq_true_eq]
      exact ⟨l, hl, hf, hb⟩

theorem lastCost_none {f b : Nat} : ∀ {ls : List CostLine}, (¬ ∃ l ∈ ls, l.forward = f ∧ l.backward = b) → lastCost ls f b = 32767
  | [], _ => rfl
  | m :: ls, h => by
    simp only [lastCost]
    rw [if_neg, if_neg]
    · exact fun e => h ⟨m, by simp, e⟩
    · simp only [List.any_eq_true, decide_eq_true_eq]
      rintro ⟨l, hl, e⟩
      exact h ⟨l, by simp [hl], e⟩

theorem lastCost_perm {ls ls' : List CostLine} (h : ls'.Perm ls) (hp : ls.Pairwise fun l m => ¬(l.forward = m.forward ∧ l.backward = m.backward)) (f b : Nat) : lastCost ls' f b = lastCost ls f b := by
  have hp' : ls'.Pairwise fun l m => ¬(l.forward = m.forward ∧ l.backward = m.backward) := (h.pairwise_iff (fun h1 h2 => h1 ⟨h2.1.symm, h2.2.symm⟩)).mpr hp
  by_cases he : ∃ l ∈ ls, l.forward = f ∧ l.backward = b
  · obtain ⟨l, hl, hf, hb⟩ := he
    rw [lastCost_unique hp hl hf hb, lastCost_unique hp' (h.mem_iff.mpr hl) hf hb]
  · rw [lastCost_none he, lastCost_none]
    rintro ⟨l, hl, e⟩
    exact he ⟨l, h.mem_iff.mp hl, e⟩

theorem covers_flatMap (p : Nat) (file : List DefLine) : file.flatMap (DefLine.categoriesOf p) = (file.filter (DefLine.covers p)).flatMap DefLine.names := by
  induction file with
  | nil => rfl
  | cons l file ih =>
    cases l with
    | category n d => simp [DefLine.categoriesOf, DefLine.covers, ih]
    | range low high names =>
      simp only [List.flatMap_cons, DefLine.categoriesOf, DefLine.covers, List.filter_cons, ih, decide_eq_true_eq]
      split <;> simp [DefLine.names]

theorem definitionsOf_once {name : Str} : ∀ {file : List DefLine} {defined : List Str}, Ordered defined file → (definitionsOf file name).length ≤ if name ∈ defined then 0 else 1
  | [], _, _ => by simp [definitionsOf]
  | .range low high names :: file, defined, .range _ h => by
    have := definitionsOf_once (name := name) h
    simpa [definitionsOf] using this
  | .category n d :: file, defined, .category hn h => by
    have := definitionsOf_once (name := name) h
    simp only [definitionsOf, List.filterMap_cons] at this ⊢
    by_cases e : n = name
    · subst e
      simp only [List.mem_cons_self, if_true, if_neg hn] at this ⊢
      simpa using this
    · simp only [if_neg e]
      simpa [List.mem_cons, Ne.symm e] using this

theorem definitionsOf_perm {file file' : List DefLine} (h : file'.Perm file) (ho : Ordered [] file) (name : Str) : definitionsOf file' name = definitionsOf file name := by
  have hp : (definitionsOf file' name).Perm (definitionsOf file name) := h.filterMap _
  have hl := definitionsOf_once (name := name) ho
  simp only [List.not_mem_nil, if_false] at hl
  match hd : definitionsOf file name, hl with
  | [], _ => rw [hd] at hp; exact hp.eq_nil
  | [d], _ => rw [hd] at hp; exact hp.eq_singleton

theorem Reordered.meaning {c c' : Contents} (h : Reordered c c') (ho : Ordered [] c.defs) (kind : DictionaryKind) (user : Option (DictionaryKind × List Row)) :
    SameMeaning (c.lexicon kind user) (c'.lexicon kind user) where
  words s := by simp only [Contents.lexicon, h.rows]
  categories ch := by
    simp only [Contents.lexicon, categoriesOf, covers_flatMap, h.ranges, (h.defs.flatMap_right DefLine.names).mem_iff]
  flags name _ := definitionsOf_perm h.defs ho name
  unknown name _ := h.unk name
  costs r l _ _ := by simp only [Lexicon.conn, Contents.lexicon, lastCost_perm h.costs h.pairs]

end Verif.Spec
