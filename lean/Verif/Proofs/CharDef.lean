import Verif.Proofs.Monad
import Verif.Proofs.Readers
import Verif.Model.CharDefBuilder
import Verif.Spec.CharDef
/-! Proofs about the compiler of character definitions. -/
namespace Verif.Model
open Verif.Spec

/-! ### Reading lines -/

theorem splitAll_head {α : Type} (p : α → Bool) (xs : List α) :
    ∃ rest, splitAll p xs = xs.takeWhile (fun x => !p x) :: rest := by
  induction xs with
  | nil => exact ⟨[], rfl⟩
  | cons x xs ih =>
    obtain ⟨rest, ih⟩ := ih
    rw [splitAll, List.takeWhile_cons]
    cases hp : p x
    · rw [ih]
      exact ⟨rest, rfl⟩
    · exact ⟨_, rfl⟩

theorem parseNat_head {radix : Nat} {c : Char} {ds : Str} (h : parseNat radix (c :: ds) ≠ none) : digitVal radix c ≠ none := by
  intro hc
  apply h
  simp [parseNat, List.foldlM_cons, hc]

theorem parseInt_of_parseNat {radix : Nat} {ds : Str} {n : Nat} (signed : Bool) (lo hi : Int)
    (h : parseNat radix ds = some n) (hlo : lo ≤ n) (hhi : n ≤ hi) : parseInt radix signed lo hi ds = some (n : Int) := by
  have hplus : digitVal radix '+' = none := by
    simp [digitVal]
  have hminus : digitVal radix '-' = none := by
    simp [digitVal]
  have h0 : ds ≠ [] := by
    rintro rfl
    simp [parseNat] at h
  obtain ⟨c, ds, rfl⟩ := List.exists_cons_of_ne_nil h0
  have hc := parseNat_head (by rw [h]; simp)
  have h1 : c ≠ '+' := by rintro rfl; exact hc hplus
  have h2 : c ≠ '-' := by rintro rfl; exact hc hminus
  simp only [parseInt]
  split
  next heq => exact absurd (List.cons.inj heq).1 h1
  next heq => exact absurd (List.cons.inj heq).1 h2
  next => simp [h, hlo, hhi]

theorem trim0x_digits {ds : Str} {n : Nat} (h : parseNat 16 ds = some n) : trim0x ds = ds := by
  unfold trim0x
  split
  next s =>
    exfalso
    have : digitVal 16 'x' = none := by decide
    have h0 : digitVal 16 '0' = some 0 := by decide
    simp [parseNat, List.foldlM_cons, this, h0] at h
  next => rfl

theorem parseHexCodepoint_of {s : Str} {n : Nat} (h : codePoint s = some n) : parseHexCodepoint s = .ok n := by
  unfold codePoint at h
  split at h
  next ds =>
    rw [Option.filter_eq_some_iff, decide_eq_true_eq] at h
    obtain ⟨h, hn⟩ := h
    have ht : trim0x ('0' :: 'x' :: ds) = ds := by
      rw [trim0x]
      exact trim0x_digits h
    have hp : parseHexU16 ds = some (UInt16.ofNat n) := by
      simp only [parseHexU16, parseInt_of_parseNat false 0 65535 h (by omega) (by omega), Option.map_some,
        Int.toNat_natCast]
    have hto : (UInt16.ofNat n).toNat = n := by
      rw [UInt16.toNat_ofNat']
      exact Nat.mod_eq_of_lt (by omega)
    rw [parseHexCodepoint, ht, hp]
    simp only [ucs2ToUnicode]
    rw [if_neg, if_neg, hto]
    · rw [UInt16.le_iff_toNat_le, UInt16.le_iff_toNat_le, hto]
      simp
      omega
    · rw [← UInt16.toNat_inj, ← UInt16.toNat_inj, hto]
      simp
      omega
  next => simp at h

theorem parseBounds_of {s : Str} {r : Nat × Nat} (h : interval s = some r) : parseBounds s = .ok r := by
  unfold interval at h
  unfold parseBounds
  split at h
  next a heq =>
    rw [Option.map_eq_some_iff] at h
    obtain ⟨n, h, rfl⟩ := h
    simp [heq, parseHexCodepoint_of h]
  next a b heq =>
    rw [Option.bind_eq_some_iff] at h
    obtain ⟨lo, h1, h⟩ := h
    rw [Option.map_eq_some_iff] at h
    obtain ⟨hi, h2, rfl⟩ := h
    simp [heq, parseHexCodepoint_of h1, parseHexCodepoint_of h2]
  next => simp at h

/-- The effect of one line on the builder. -/
def CharDefBuilder.step (b : CharDefBuilder) : DefLine → CharDefBuilder
  | .category name data => { (b.categoryId name).1 with definitions := (b.categoryId name).1.definitions ++ [data] }
  | .range low high names => { (b.categoryIds names).1 with ranges := (b.categoryIds names).1.ranges ++ [(low, high, (b.categoryIds names).2)] }

theorem parseRange_of {b : CharDefBuilder} {s : Str} {l : DefLine} (h : readRange s = some l) : b.parseRange s = .ok (b.step l) := by
  unfold readRange at h
  unfold CharDefBuilder.parseRange
  split at h
  next bounds names heq =>
    rw [Option.map_eq_some_iff] at h
    obtain ⟨⟨lo, hi⟩, h, rfl⟩ := h
    simp [heq, parseBounds_of h, CharDefBuilder.step]
  next => simp at h

theorem parseCategory_of {b : CharDefBuilder} {s : Str} {l : DefLine} (h : readCategory s = some l) :
    b.parseCategory s = .ok (b.step l) := by
  unfold readCategory at h
  unfold CharDefBuilder.parseCategory
  split at h
  next name i g n heq =>
    rw [Option.bind_eq_some_iff] at h
    obtain ⟨i', h1, h⟩ := h
    rw [Option.bind_eq_some_iff] at h
    obtain ⟨g', h2, h⟩ := h
    rw [Option.map_eq_some_iff] at h
    obtain ⟨n', h3, rfl⟩ := h
    simp only [heq, parseU32R, h1, h2, h3, bind_ok, CharDefBuilder.step, pure_eq_ok]
    have e1 : (i' == 1) = decide (i' = 1) := rfl
    have e2 : (g' == 1) = decide (g' = 1) := rfl
    rw [e1, e2]
  next => simp at h

theorem parseLine_of {b : CharDefBuilder} {line : Str} {l : Option DefLine} (h : readDefLine line = some l) :
    b.parseLine line = .ok (l.elim b b.step) := by
  obtain ⟨rest, hs⟩ := splitAll_head (· = '#') line
  have e : (fun x : Char => !decide (x = '#')) = (fun x => decide (x ≠ '#')) := by
    funext x
    simp
  unfold readDefLine at h
  unfold CharDefBuilder.parseLine
  rw [hs, List.headD_cons, e]
  dsimp only at h ⊢
  change (if uncommented line = [] then _ else if ['0', 'x'].isPrefixOf (uncommented line) = true then b.parseRange (uncommented line)
    else b.parseCategory (uncommented line)) = _
  split at h
  next h0 =>
    rw [if_pos h0]
    simp only [Option.some.injEq] at h
    subst h
    rfl
  next h0 =>
    rw [if_neg h0]
    split at h
    next h1 =>
      rw [if_pos h1]
      rw [Option.map_eq_some_iff] at h
      obtain ⟨l', h, rfl⟩ := h
      exact parseRange_of h
    next h1 =>
      rw [if_neg h1]
      rw [Option.map_eq_some_iff] at h
      obtain ⟨l', h, rfl⟩ := h
      exact parseCategory_of h

theorem parse_of {text : Str} {file : List DefLine} (h : readDef text = some file) (b : CharDefBuilder) :
    b.parse text = .ok (file.foldl CharDefBuilder.step b) := by
  unfold readDef at h
  unfold CharDefBuilder.parse
  rw [Option.map_eq_some_iff] at h
  obtain ⟨ls, h, rfl⟩ := h
  generalize lines text = ts at h
  induction ts generalizing ls b with
  | nil =>
    simp only [List.mapM_nil] at h
    cases h
    rfl
  | cons t ts ih =>
    rw [List.mapM_cons] at h
    simp only [Option.bind_eq_bind, Option.bind_eq_some_iff] at h
    obtain ⟨l, hl, ls', hls, h⟩ := h
    cases h
    rw [List.foldlM_cons, parseLine_of hl, bind_ok, ih _ _ hls]
    cases l <;> simp

/-! ### Category names and ids -/

theorem lookup_zipIdx_none (ms : List Str) (k : Nat) (x : Str) (h : x ∉ ms) : (ms.zipIdx k).lookup x = none := by
  induction ms generalizing k with
  | nil => rfl
  | cons m ms ih =>
    rw [List.zipIdx_cons, List.lookup_cons]
    have : (x == m) = false := by
      rw [beq_eq_false_iff_ne]
      rintro rfl
      simp at h
    rw [this]
    exact ih _ (by simp at h; exact h.2)

theorem lookup_zipIdx_mem (ms : List Str) (k : Nat) (x : Str) (h : x ∈ ms) :
    ∃ i, (ms.zipIdx k).lookup x = some (k + i) ∧ ms[i]? = some x := by
  induction ms generalizing k with
  | nil => simp at h
  | cons m ms ih =>
    rw [List.zipIdx_cons, List.lookup_cons]
    cases hx : x == m with
    | true =>
      rw [beq_iff_eq] at hx
      exact ⟨0, rfl, by simp [hx]⟩
    | false =>
      rw [beq_eq_false_iff_ne] at hx
      have hm : x ∈ ms := by
        rcases List.mem_cons.mp h with h | h
        · exact absurd h hx
        · exact h
      obtain ⟨i, h1, h2⟩ := ih (k + 1) hm
      exact ⟨i + 1, by rw [← Nat.add_assoc, Nat.add_right_comm]; exact h1, by simpa using h2⟩

/-- Append unless present. -/
def push {α : Type} [DecidableEq α] (buf : List α) (x : α) : List α := if x ∈ buf then buf else buf ++ [x]

theorem push_nodup {α : Type} [DecidableEq α] {buf : List α} (h : buf.Nodup) (x : α) : (push buf x).Nodup := by
  unfold push
  split
  · exact h
  next hx =>
    rw [List.nodup_append]
    refine ⟨h, by simp, ?_⟩
    intro a ha b hb
    simp only [List.mem_singleton] at hb
    subst hb
    rintro rfl
    exact hx ha

theorem foldl_push {α : Type} [DecidableEq α] (xs buf : List α) :
    xs.foldl push buf = buf ++ (firsts xs).filter (fun x => x ∉ buf) := by
  induction xs generalizing buf with
  | nil => simp [firsts]
  | cons x xs ih =>
    rw [List.foldl_cons, ih, firsts, List.filter_cons]
    unfold push
    by_cases hx : x ∈ buf
    · rw [if_pos hx, if_neg (by simpa using hx), List.filter_filter]
      congr 1
      apply List.filter_congr
      intro y hy
      by_cases hyb : y ∈ buf
      · simp [hyb]
      · have : y ≠ x := by
          rintro rfl
          exact hyb hx
        simp [hyb, this]
    · rw [if_neg hx, if_pos (by simpa using hx), List.filter_filter, List.append_assoc, List.singleton_append]
      congr 2
      apply List.filter_congr
      intro y hy
      by_cases hyb : y ∈ buf <;> simp [hyb]

theorem foldl_push_nil {α : Type} [DecidableEq α] (xs : List α) : xs.foldl push [] = firsts xs := by
  rw [foldl_push]
  simp

theorem foldl_push_nodup {α : Type} [DecidableEq α] (xs buf : List α) (h : buf.Nodup) : (xs.foldl push buf).Nodup := by
  induction xs generalizing buf with
  | nil => exact h
  | cons x xs ih => exact ih _ (push_nodup h x)

theorem mem_foldl_push {α : Type} [DecidableEq α] (xs buf : List α) (x : α) : x ∈ xs.foldl push buf ↔ x ∈ buf ∨ x ∈ xs := by
  induction xs generalizing buf with
  | nil => simp
  | cons y xs ih =>
    rw [List.foldl_cons, ih]
    unfold push
    split
    next h =>
      simp only [List.mem_cons]
      constructor
      · rintro (h | h) <;> simp [h]
      · rintro (h' | rfl | h') <;> simp_all
    next h => simp [or_assoc]

theorem mem_firsts {α : Type} [DecidableEq α] (xs : List α) (x : α) : x ∈ firsts xs ↔ x ∈ xs := by
  rw [← foldl_push_nil, mem_foldl_push]
  simp

theorem foldl_push_prefix {α : Type} [DecidableEq α] (xs buf : List α) : ∃ t, xs.foldl push buf = buf ++ t :=
  ⟨_, foldl_push xs buf⟩

/-- `id` is the number of `name`. -/
def IsName (ms : List Str) (id : Nat) (name : Str) : Prop := ms[id]? = some name

theorem IsName.append {ms : List Str} {id : Nat} {name : Str} (h : IsName ms id name) (t : List Str) : IsName (ms ++ t) id name := by
  unfold IsName at *
  have hl : id < ms.length := by
    rw [List.getElem?_eq_some_iff] at h
    exact h.1
  rw [List.getElem?_append_left hl, h]

theorem IsName.inj {ms : List Str} (hnd : ms.Nodup) {i j : Nat} {n m : Str} (h1 : IsName ms i n) (h2 : IsName ms j m) :
    i = j ↔ n = m := by
  unfold IsName at *
  rw [List.getElem?_eq_some_iff] at h1 h2
  obtain ⟨hi, h1⟩ := h1
  obtain ⟨hj, h2⟩ := h2
  subst h1 h2
  constructor
  · rintro rfl
    rfl
  · exact fun h => (List.getElem_inj hnd).mp h

theorem categoryId_spec {b : CharDefBuilder} {ms : List Str} (hi : b.index = ms.zipIdx) (name : Str) :
    (b.categoryId name).1 = { b with index := (push ms name).zipIdx } ∧ IsName (push ms name) (b.categoryId name).2 name := by
  unfold CharDefBuilder.categoryId push
  by_cases h : name ∈ ms
  · obtain ⟨i, h1, h2⟩ := lookup_zipIdx_mem ms 0 name h
    rw [hi, h1, if_pos h]
    refine ⟨by rw [← hi], ?_⟩
    unfold IsName
    simpa using h2
  · rw [hi, lookup_zipIdx_none ms 0 name h, if_neg h]
    constructor
    · simp [List.zipIdx_append]
    · simp [IsName]

theorem categoryIds_spec {b : CharDefBuilder} {ms : List Str} (hi : b.index = ms.zipIdx) (names : List Str) :
    (b.categoryIds names).1 = { b with index := (names.foldl push ms).zipIdx } ∧
    List.Forall₂ (IsName (names.foldl push ms)) (b.categoryIds names).2 names := by
  induction names generalizing b ms with
  | nil => exact ⟨by simp [CharDefBuilder.categoryIds, ← hi], .nil⟩
  | cons name names ih =>
    obtain ⟨h1, h2⟩ := categoryId_spec hi name
    have hi' : (b.categoryId name).1.index = (push ms name).zipIdx := by rw [h1]
    obtain ⟨h3, h4⟩ := ih hi'
    rw [CharDefBuilder.categoryIds, List.foldl_cons]
    dsimp only
    refine ⟨?_, .cons ?_ h4⟩
    · rw [h3, h1]
    · obtain ⟨t, ht⟩ := foldl_push_prefix names (push ms name)
      rw [ht]
      exact h2.append t

/-- The ranges of a file. -/
def rangesOf (file : List DefLine) : List (Nat × Nat × List Str) :=
  file.filterMap fun
    | .category .. => none
    | .range lo hi names => some (lo, hi, names)

/-- A range of the builder stands for a range of the file. -/
def SameRange (ms : List Str) (r : Nat × Nat × List Nat) (l : Nat × Nat × List Str) : Prop :=
  r.1 = l.1 ∧ r.2.1 = l.2.1 ∧ List.Forall₂ (IsName ms) r.2.2 l.2.2

/-- The datas of the category lines. -/
def datasOf (file : List DefLine) : List CategoryData :=
  file.filterMap fun
    | .category _ d => some d
    | .range .. => none

/-- The state of the builder after reading a file. -/
structure BuilderOk (file : List DefLine) (b : CharDefBuilder) (ms : List Str) : Prop where
  names : ms = firsts (file.flatMap DefLine.names)
  nodup : ms.Nodup
  index : b.index = ms.zipIdx
  ranges : List.Forall₂ (SameRange ms) b.ranges (rangesOf file)
  datas : b.definitions = datasOf file

theorem SameRange.append {ms : List Str} {r : Nat × Nat × List Nat} {l : Nat × Nat × List Str} (h : SameRange ms r l) (t : List Str) :
    SameRange (ms ++ t) r l :=
  ⟨h.1, h.2.1, h.2.2.imp fun _ _ h => h.append t⟩

theorem forall₂_append {α β : Type} {R : α → β → Prop} {as as' : List α} {bs bs' : List β} (h : List.Forall₂ R as bs)
    (h' : List.Forall₂ R as' bs') : List.Forall₂ R (as ++ as') (bs ++ bs') := by
  induction h with
  | nil => exact h'
  | cons h _ ih => exact .cons h ih

theorem builderOk_step {file : List DefLine} {b : CharDefBuilder} {ms : List Str} (h : BuilderOk file b ms) (l : DefLine) :
    BuilderOk (file ++ [l]) (b.step l) (l.names.foldl push ms) := by
  have hn : l.names.foldl push ms = firsts ((file ++ [l]).flatMap DefLine.names) := by
    rw [h.names, ← foldl_push_nil, ← foldl_push_nil, ← List.foldl_append]
    simp
  have hnd := foldl_push_nodup l.names ms h.nodup
  obtain ⟨t, ht⟩ := foldl_push_prefix l.names ms
  have hr : List.Forall₂ (SameRange (l.names.foldl push ms)) b.ranges (rangesOf file) := by
    rw [ht]
    exact h.ranges.imp fun _ _ h => h.append t
  cases l with
  | category name data =>
    obtain ⟨h1, h2⟩ := categoryId_spec h.index name
    refine ⟨hn, hnd, ?_, ?_, ?_⟩
    · simp [CharDefBuilder.step, h1, DefLine.names]
    · simp only [CharDefBuilder.step, h1, rangesOf, List.filterMap_append]
      simpa [rangesOf] using hr
    · simp [CharDefBuilder.step, h1, datasOf, h.datas]
  | range lo hi names =>
    obtain ⟨h1, h2⟩ := categoryIds_spec h.index names
    refine ⟨hn, hnd, ?_, ?_, ?_⟩
    · simp [CharDefBuilder.step, h1, DefLine.names]
    · simp only [CharDefBuilder.step, h1, rangesOf, List.filterMap_append]
      exact forall₂_append hr (.cons ⟨rfl, rfl, h2⟩ .nil)
    · simp [CharDefBuilder.step, h1, datasOf, h.datas]

theorem builderOk (file : List DefLine) :
    BuilderOk file (file.foldl CharDefBuilder.step .empty) (firsts (file.flatMap DefLine.names)) := by
  have : ∀ rest done b ms, BuilderOk done b ms → ∃ ms', BuilderOk (done ++ rest) (rest.foldl CharDefBuilder.step b) ms' := by
    intro rest
    induction rest with
    | nil =>
      intro done b ms h
      exact ⟨ms, by simpa using h⟩
    | cons l rest ih =>
      intro done b ms h
      have := ih _ _ _ (builderOk_step h l)
      simpa using this
  obtain ⟨ms, h⟩ := this file [] .empty [] ⟨rfl, List.nodup_nil, rfl, .nil, rfl⟩
  rw [List.nil_append] at h
  rw [← h.names]
  exact h

/-! ### Categories of a code point -/

theorem pushNew_eq_push : pushNew = push := by
  funext buf cat
  simp only [pushNew, push, List.contains_iff_mem]

theorem foldl_rangeStep (c : Nat) (rs : List (Nat × Nat × List Nat)) (buf : List Nat) :
    rs.foldl (rangeStep c) buf = (rs.flatMap fun r => if r.1 ≤ c ∧ r.2.1 ≥ c then r.2.2 else []).foldl push buf := by
  induction rs generalizing buf with
  | nil => rfl
  | cons r rs ih =>
    rw [List.foldl_cons, ih, List.flatMap_cons, List.foldl_append]
    congr 1
    unfold rangeStep
    rw [pushNew_eq_push]
    split <;> rfl

theorem IsName.mem_iff {ms : List Str} (hnd : ms.Nodup) {ids : List Nat} {ns : List Str} (h : List.Forall₂ (IsName ms) ids ns) {id : Nat}
    {n : Str} (hn : IsName ms id n) : id ∈ ids ↔ n ∈ ns := by
  induction h with
  | nil => simp
  | cons h _ ih => simp only [List.mem_cons, ih, IsName.inj hnd hn h]

theorem foldl_push_names {ms : List Str} (hnd : ms.Nodup) {ids : List Nat} {ns : List Str} (h : List.Forall₂ (IsName ms) ids ns)
    {buf : List Nat} {nbuf : List Str} (hb : List.Forall₂ (IsName ms) buf nbuf) :
    List.Forall₂ (IsName ms) (ids.foldl push buf) (ns.foldl push nbuf) := by
  induction h generalizing buf nbuf with
  | nil => exact hb
  | @cons id _ _ _ h _ ih =>
    rw [List.foldl_cons, List.foldl_cons]
    apply ih
    unfold push
    by_cases hm : id ∈ buf
    · rw [if_pos hm, if_pos ((IsName.mem_iff hnd hb h).mp hm)]
      exact hb
    · rw [if_neg hm, if_neg (fun hm' => hm ((IsName.mem_iff hnd hb h).mpr hm'))]
      exact forall₂_append hb (.cons h .nil)

theorem sameRanges_flat {ms : List Str} {rs : List (Nat × Nat × List Nat)} {ls : List (Nat × Nat × List Str)}
    (h : List.Forall₂ (SameRange ms) rs ls) (c : Nat) :
    List.Forall₂ (IsName ms) (rs.flatMap fun r => if r.1 ≤ c ∧ r.2.1 ≥ c then r.2.2 else [])
      (ls.flatMap fun r => if r.1 ≤ c ∧ r.2.1 ≥ c then r.2.2 else []) := by
  induction h with
  | nil => exact .nil
  | cons h _ ih =>
    rw [List.flatMap_cons, List.flatMap_cons]
    refine forall₂_append ?_ ih
    rw [h.1, h.2.1]
    split
    · exact h.2.2
    · exact .nil

theorem rangesOf_flat (file : List DefLine) (c : Nat) :
    ((rangesOf file).flatMap fun r => if r.1 ≤ c ∧ r.2.1 ≥ c then r.2.2 else []) = file.flatMap (DefLine.categoriesOf c) := by
  induction file with
  | nil => rfl
  | cons l file ih =>
    rw [List.flatMap_cons, ← ih]
    cases l with
    | category => rfl
    | range lo hi names => rfl

theorem forall₂_eq_nil {α β : Type} {R : α → β → Prop} {as : List α} {bs : List β} (h : List.Forall₂ R as bs) : as = [] ↔ bs = [] := by
  cases h <;> simp

theorem lookupCategories_spec {file : List DefLine} {b : CharDefBuilder} {ms : List Str} (h : BuilderOk file b ms) (c : Nat) :
    List.Forall₂ (IsName ms) (b.lookupCategories c) (categoriesOf file c) := by
  have h1 := foldl_push_names h.nodup (sameRanges_flat h.ranges c) (buf := []) (nbuf := []) .nil
  rw [rangesOf_flat, foldl_push_nil (file.flatMap _)] at h1
  have hm : ∀ x, x ∈ file.flatMap DefLine.names ↔ x ∈ ms := by
    intro x
    rw [h.names, mem_firsts]
  unfold CharDefBuilder.lookupCategories categoriesOf
  dsimp only
  rw [foldl_rangeStep]
  unfold defaultName
  generalize hdef : ['D', 'E', 'F', 'A', 'U', 'L', 'T'] = dn
  by_cases h0 : firsts (file.flatMap (DefLine.categoriesOf c)) = []
  · rw [if_pos ((forall₂_eq_nil h1).mpr h0), h.index]
    by_cases hd : dn ∈ ms
    · obtain ⟨i, h2, h3⟩ := lookup_zipIdx_mem ms 0 _ hd
      rw [if_pos ⟨h0, (hm _).mpr hd⟩, h2, Nat.zero_add]
      exact .cons h3 .nil
    · rw [if_neg (by rw [hm]; simp [hd]), lookup_zipIdx_none ms 0 _ hd, h0]
      exact .nil
  · rw [if_neg (fun hn => h0 ((forall₂_eq_nil h1).mp hn)), if_neg (by simp [h0])]
    exact h1

/-! ### The lookup table -/

theorem mem_insertNat (dup : Bool) (x y : Nat) (xs : List Nat) : y ∈ insertNat dup x xs ↔ y = x ∨ y ∈ xs := by
  induction xs with
  | nil => simp [insertNat]
  | cons z zs ih =>
    unfold insertNat
    split
    · simp
    split
    next h => simp [h.1]
    next h => simp only [List.mem_cons, ih]; constructor <;> (intro h; rcases h with h | h | h <;> simp [h])

theorem mem_sortNat (xs : List Nat) (y : Nat) : y ∈ sortNat xs ↔ y ∈ xs := by
  induction xs with
  | nil => simp [sortNat]
  | cons x xs ih => simp only [sortNat, List.foldr_cons, mem_insertNat, List.mem_cons]; rw [← ih]; rfl

theorem mem_sortedSet (xs : List Nat) (y : Nat) : y ∈ sortedSet xs ↔ y ∈ xs := by
  induction xs with
  | nil => simp [sortedSet]
  | cons x xs ih => simp only [sortedSet, List.foldr_cons, mem_insertNat, List.mem_cons]; rw [← ih]; rfl

theorem insertNat_sorted (dup : Bool) (x : Nat) (xs : List Nat) (h : xs.Pairwise (· < ·)) (hx : dup = true → x ∉ xs) :
    (insertNat dup x xs).Pairwise (· < ·) := by
  induction xs with
  | nil => simp [insertNat]
  | cons y ys ih =>
    rw [List.pairwise_cons] at h
    unfold insertNat
    split
    next hlt =>
      rw [List.pairwise_cons]
      refine ⟨?_, List.pairwise_cons.mpr h⟩
      intro z hz
      rcases List.mem_cons.mp hz with rfl | hz
      · exact hlt
      · exact Nat.lt_trans hlt (h.1 z hz)
    next hnlt =>
      split
      · exact List.pairwise_cons.mpr h
      next hne =>
        rw [List.pairwise_cons]
        refine ⟨?_, ih h.2 (fun hd hm => hx hd (by simp [hm]))⟩
        intro z hz
        rw [mem_insertNat] at hz
        rcases hz with rfl | hz
        · have : z ≠ y := by
            rintro rfl
            cases dup
            · simp at hne
            · exact hx rfl (by simp)
          omega
        · exact h.1 z hz

theorem sortedSet_sorted (xs : List Nat) : (sortedSet xs).Pairwise (· < ·) := by
  induction xs with
  | nil => exact .nil
  | cons x xs ih => exact insertNat_sorted false x _ ih (by simp)

theorem sortNat_sorted (xs : List Nat) (h : xs.Nodup) : (sortNat xs).Pairwise (· < ·) := by
  induction xs with
  | nil => exact .nil
  | cons x xs ih =>
    rw [List.nodup_cons] at h
    exact insertNat_sorted true x _ (ih h.2) (fun _ hm => h.1 ((mem_sortNat xs x).mp hm))

theorem eval_spec (bs : List Nat) (f : Nat → List Nat) (hs : bs.Pairwise (· < ·)) (h0 : 0 ∈ bs) (t : Nat) :
    ∃ p ∈ bs, p ≤ t ∧ (∀ q ∈ bs, q ≤ t → q ≤ p) ∧ LookupTable.eval ⟨bs, bs.map f⟩ t = .ok (f p) := by
  have hpre : bs.takeWhile (· < t) ++ bs.dropWhile (· < t) = bs := List.takeWhile_append_dropWhile
  generalize hl : bs.takeWhile (· < t) = l at hpre
  generalize hr : bs.dropWhile (· < t) = r at hpre
  have hlt : ∀ q ∈ l, q < t := by
    intro q hq
    rw [← hl] at hq
    have := List.all_eq_true.mp (List.all_takeWhile (p := fun x => decide (x < t)) (l := bs)) q hq
    simpa using this
  have hge : ∀ q ∈ r, t ≤ q := by
    cases r with
    | nil => simp
    | cons y ys =>
      have hy : ¬ y < t := by
        have := List.head?_dropWhile_not (fun x => decide (x < t)) bs
        rw [hr] at this
        simpa using this
      rw [← hpre, List.pairwise_append] at hs
      intro q hq
      rcases List.mem_cons.mp hq with rfl | hq
      · omega
      · have := (List.pairwise_cons.mp hs.2.1).1 q hq
        omega
  unfold LookupTable.eval binarySearch
  dsimp only
  rw [hl]
  by_cases ht : bs[l.length]? = some t
  · rw [if_pos ht]
    refine ⟨t, List.mem_of_getElem? ht, Nat.le_refl _, fun q _ h => h, ?_⟩
    simp [ht]
  · rw [if_neg ht]
    have hgt : ∀ q ∈ r, t < q := by
      cases r with
      | nil => simp
      | cons y ys =>
        have hy : t ≠ y := by
          rintro rfl
          apply ht
          rw [← hpre]
          simp
        rw [← hpre, List.pairwise_append] at hs
        have hy2 := hge y (by simp)
        intro q hq
        rcases List.mem_cons.mp hq with rfl | hq
        · omega
        · have := (List.pairwise_cons.mp hs.2.1).1 q hq
          omega
    have hne : l ≠ [] := by
      rintro rfl
      rw [← hpre] at h0
      have := hgt 0 (by simpa using h0)
      omega
    obtain ⟨l', p, rfl⟩ := List.eq_nil_or_concat l |>.resolve_left hne
    rw [List.concat_eq_append] at hpre hlt
    refine ⟨p, ?_, ?_, ?_, ?_⟩
    · rw [← hpre]; simp
    · exact Nat.le_of_lt (hlt p (by simp))
    · intro q hq hqt
      rw [← hpre, List.append_assoc, List.mem_append, List.singleton_append, List.mem_cons] at hq
      rcases hq with hq | rfl | hq
      · rw [← hpre, List.append_assoc, List.pairwise_append] at hs
        exact Nat.le_of_lt (hs.2.2 q hq p (by simp))
      · exact Nat.le_refl _
      · have := hgt q hq
        omega
    · rw [List.length_concat]
      dsimp only
      rw [← hpre]
      simp

theorem fromFn_spec (boundaries : List Nat) (f : Nat → List Nat) (hs : boundaries.Nodup) (t : Nat) :
    ∃ p, p ≤ t ∧ (∀ q ∈ boundaries, q ≤ t → q ≤ p) ∧ (LookupTable.fromFn boundaries f).eval t = .ok (f p) := by
  unfold LookupTable.fromFn
  dsimp only
  have hnd : (if boundaries.contains 0 = true then boundaries else boundaries ++ [0]).Nodup := by
    split
    · exact hs
    next h =>
      rw [List.contains_iff_mem] at h
      have := push_nodup hs 0
      rwa [push, if_neg h] at this
  have h0 : 0 ∈ (if boundaries.contains 0 = true then boundaries else boundaries ++ [0]) := by
    split
    next h => rwa [List.contains_iff_mem] at h
    · simp
  have hsub : ∀ q ∈ boundaries, q ∈ (if boundaries.contains 0 = true then boundaries else boundaries ++ [0]) := by
    intro q hq
    split
    · exact hq
    · simp [hq]
  generalize (if boundaries.contains 0 = true then boundaries else boundaries ++ [0]) = bs at *
  obtain ⟨p, _, h2, h3, h4⟩ := eval_spec (sortNat bs) f (sortNat_sorted bs hnd) ((mem_sortNat _ _).mpr h0) t
  exact ⟨p, h2, fun q hq hqt => h3 q ((mem_sortNat _ _).mpr (hsub q hq)) hqt, h4⟩

theorem lookupCategories_congr (b : CharDefBuilder) (c d : Nat)
    (h : ∀ r ∈ b.ranges, (r.1 ≤ c ∧ r.2.1 ≥ c) ↔ (r.1 ≤ d ∧ r.2.1 ≥ d)) : b.lookupCategories c = b.lookupCategories d := by
  unfold CharDefBuilder.lookupCategories
  have : b.ranges.foldl (rangeStep c) [] = b.ranges.foldl (rangeStep d) [] := by
    rw [foldl_rangeStep, foldl_rangeStep]
    congr 1
    unfold List.flatMap
    congr 1
    apply List.map_congr_left
    intro r hr
    simp only [h r hr]
  rw [this]

theorem buildLookupTable_eval (b : CharDefBuilder) (c : Nat) : b.buildLookupTable.eval c = .ok (b.lookupCategories c) := by
  unfold CharDefBuilder.buildLookupTable
  have hnd : (sortedSet (b.ranges.flatMap fun r => [r.1, r.2.1 + 1])).Nodup :=
    (sortedSet_sorted _).imp (fun h => Nat.ne_of_lt h)
  obtain ⟨p, h1, h2, h3⟩ := fromFn_spec _ b.lookupCategories hnd c
  rw [h3]
  congr 1
  apply lookupCategories_congr
  intro r hr
  have hlo : r.1 ≤ c → r.1 ≤ p := h2 r.1 ((mem_sortedSet _ _).mpr (List.mem_flatMap.mpr ⟨r, hr, by simp⟩))
  have hhi : r.2.1 + 1 ≤ c → r.2.1 + 1 ≤ p := h2 (r.2.1 + 1) ((mem_sortedSet _ _).mpr (List.mem_flatMap.mpr ⟨r, hr, by simp⟩))
  constructor
  · rintro ⟨h4, h5⟩
    refine ⟨by omega, ?_⟩
    by_cases h6 : r.2.1 + 1 ≤ c
    · have := hhi h6
      omega
    · omega
  · rintro ⟨h4, h5⟩
    exact ⟨hlo h4, by omega⟩

/-! ### Names -/

theorem fillNames_fold (order : List (Str × Nat)) (names : List Str) (hlt : ∀ e ∈ order, e.2 < names.length)
    (hnd : (order.map (·.2)).Nodup) :
    ∃ out, order.foldlM (init := names) (fun (names : List Str) e =>
        if e.2 < names.length then (.ok (names.set e.2 e.1) : R (List Str)) else .error .panic) = .ok out ∧
      out.length = names.length ∧ (∀ e ∈ order, out[e.2]? = some e.1) ∧ ∀ i, i ∉ order.map (·.2) → out[i]? = names[i]? := by
  induction order generalizing names with
  | nil => exact ⟨names, rfl, rfl, by simp, by simp⟩
  | cons e order ih =>
    rw [List.map_cons, List.nodup_cons] at hnd
    have h0 := hlt e (by simp)
    obtain ⟨out, h1, h2, h3, h4⟩ := ih (names.set e.2 e.1) (by
      intro e' he'
      rw [List.length_set]
      exact hlt e' (by simp [he'])) hnd.2
    refine ⟨out, ?_, ?_, ?_, ?_⟩
    · rw [List.foldlM_cons, if_pos h0, bind_ok]
      exact h1
    · rw [h2, List.length_set]
    · intro e' he'
      rcases List.mem_cons.mp he' with rfl | he'
      · rw [h4 _ hnd.1, List.getElem?_set_self h0]
      · exact h3 e' he'
    · intro i hi
      simp only [List.map_cons, List.mem_cons, not_or] at hi
      rw [h4 i hi.2, List.getElem?_set_ne (by omega)]

theorem fillNames_spec {ms : List Str} {order : List (Str × Nat)} (h : order.Perm ms.zipIdx) : fillNames ms.zipIdx.length order = .ok ms := by
  have hlen : ms.zipIdx.length = ms.length := List.length_zipIdx
  have hsnd : ms.zipIdx.map (·.2) = List.range ms.length := by
    rw [List.range_eq_range']
    exact List.zipIdx_map_snd 0 ms
  have hget : ∀ i (hi : i < ms.length), (ms[i], i) ∈ order := by
    intro i hi
    rw [h.mem_iff, List.mk_mem_zipIdx_iff_getElem?]
    simp
  obtain ⟨out, h1, h2, h3, -⟩ := fillNames_fold order (List.replicate ms.zipIdx.length [])
    (by
      intro e he
      rw [h.mem_iff] at he
      have : e.2 ∈ ms.zipIdx.map (·.2) := List.mem_map.mpr ⟨e, he, rfl⟩
      rw [hsnd, List.mem_range] at this
      rw [List.length_replicate, hlen]
      exact this)
    (by
      rw [(h.map (·.2)).nodup_iff, hsnd]
      exact List.nodup_range)
  unfold fillNames
  rw [h1]
  congr 1
  apply List.ext_getElem?
  intro i
  rw [List.length_replicate, hlen] at h2
  by_cases hi : i < ms.length
  · rw [h3 _ (hget i hi)]
    simp [hi]
  · rw [List.getElem?_eq_none (by omega), List.getElem?_eq_none (by omega)]

/-! ### Definitions -/

/-- The names of the category lines. -/
def catNames (file : List DefLine) : List Str :=
  file.filterMap fun
    | .category n _ => some n
    | .range .. => none

theorem foldl_push_mem {ms xs : List Str} (h : ∀ x ∈ xs, x ∈ ms) : xs.foldl push ms = ms := by
  induction xs with
  | nil => rfl
  | cons x xs ih =>
    rw [List.foldl_cons, push, if_pos (h x (by simp))]
    exact ih fun y hy => h y (by simp [hy])

theorem ordered_names {D : List Str} {file : List DefLine} (h : Ordered D file) (ms : List Str) (hD : ∀ n, n ∈ D ↔ n ∈ ms) :
    (file.flatMap DefLine.names).foldl push ms = ms ++ catNames file := by
  induction h generalizing ms with
  | nil => simp [catNames]
  | @category D name data file hn _ ih =>
    rw [List.flatMap_cons, List.foldl_append]
    have : name ∉ ms := fun hm => hn ((hD name).mpr hm)
    simp only [DefLine.names, List.foldl_cons, List.foldl_nil, push, if_neg this]
    rw [ih (ms ++ [name]) (by intro n; simp [hD, or_comm])]
    simp [catNames]
  | @range D lo hi names file hn _ ih =>
    rw [List.flatMap_cons, List.foldl_append]
    simp only [DefLine.names]
    rw [foldl_push_mem (fun x hx => (hD x).mp (hn x hx)), ih ms hD]
    simp [catNames]

theorem ordered_not_mem {D : List Str} {file : List DefLine} (h : Ordered D file) {n : Str} (hn : n ∈ D) : definitionsOf file n = [] := by
  induction h with
  | nil => rfl
  | @category D name data file hd _ ih =>
    have : name ≠ n := by
      rintro rfl
      exact hd hn
    have := ih (by simp [hn])
    simp only [definitionsOf, List.filterMap_cons] at *
    simp [*]
  | @range D lo hi names file _ _ ih => simpa [definitionsOf] using ih hn

theorem ordered_definition {D : List Str} {file : List DefLine} (h : Ordered D file) {i : Nat} {n : Str} (hi : (catNames file)[i]? = some n) :
    ∃ data, definitionsOf file n = [data] ∧ (datasOf file)[i]? = some data := by
  induction h generalizing i with
  | nil => simp [catNames] at hi
  | @category D name data file hd ho ih =>
    cases i with
    | zero =>
      have : name = n := by simpa [catNames] using hi
      subst this
      refine ⟨data, ?_, by simp [datasOf]⟩
      have := ordered_not_mem ho (n := name) (by simp)
      simp only [definitionsOf] at this
      simp [definitionsOf, this]
    | succ i =>
      have hi' : (catNames file)[i]? = some n := by simpa [catNames] using hi
      obtain ⟨d, h1, h2⟩ := ih hi'
      have hne : name ≠ n := by
        rintro rfl
        rw [ordered_not_mem ho (by simp)] at h1
        simp at h1
      refine ⟨d, ?_, by simpa [datasOf] using h2⟩
      simp only [definitionsOf] at h1
      simp [definitionsOf, hne, h1]
  | @range D lo hi names file _ _ ih =>
    obtain ⟨d, h1, h2⟩ := ih (by simpa [catNames] using hi)
    exact ⟨d, by simpa [definitionsOf] using h1, by simpa [datasOf] using h2⟩

end Verif.Model
