import Verif.Props.CharDef
import Verif.Props.Matrix
import Verif.Props.Accepted
import Verif.Proofs.Builder
import Verif.Proofs.UserDict
import Verif.Proofs.NoPanic
import Verif.Proofs.Coverage
import Verif.Proofs.Language
import Verif.Spec.Details
import Verif.Spec.BuildDir
import Verif.Proofs.Ties
import Mathlib.Data.List.Nodup
/-! Compiling good sources gives tables that say the same. -/
namespace Verif.Model
open Verif.Spec Verif.Props

/-! ### The files -/

theorem compiled_unique {text : Str} {d d' : CharDefs} (h : Compiles text d) (h' : Compiles text d') : d = d' := by
  obtain ⟨b, hb, hd⟩ := h
  obtain ⟨b', hb', hd'⟩ := h'
  rw [hb] at hb'
  cases hb'
  have e1 := hd _ (List.Perm.refl _)
  have e2 := hd' _ (List.Perm.refl _)
  rw [e1] at e2
  cases e2
  rfl

/-- The compiled character definitions of a good file. -/
structure CharsOk (file : List DefLine) (d : CharDefs) : Prop where
  cats : ∀ c : Char, ∃ ids, d.lookupCategories c = .ok ids ∧ ids.mapM d.categoryName = .ok (categoriesOf file c.toNat)
  defs : ∀ id name, d.categoryName id = .ok name → ∃ data, definitionsOf file name = [data] ∧ d.lookupDefinition id = .ok data
  names : d.names = firsts (file.flatMap DefLine.names)
  nodup : d.names.Nodup

theorem chars_ok {text : Str} {file : List DefLine} (h : DefRead text file) (ho : Ordered [] file) : ∃ d, Compiles text d ∧ CharsOk file d := by
  obtain ⟨d, hd, h1⟩ := categories_read text file h
  obtain ⟨d', hd', h2⟩ := flags_read text file h ho
  obtain ⟨b, hb, hd''⟩ := compiles_read h
  obtain rfl := compiled_unique hd hd'
  obtain rfl := compiled_unique hd hd''
  refine ⟨_, hd, fun c => ?_, h2, rfl, hb.nodup⟩
  obtain ⟨ids, h3, -, h4⟩ := h1 c
  exact ⟨ids, h3, h4⟩

theorem CharsOk.inj {file : List DefLine} {d : CharDefs} (h : CharsOk file d) (id id' : Nat) (name : Str) (h1 : d.categoryName id = .ok name)
    (h2 : d.categoryName id' = .ok name) : id = id' := by
  simp only [CharDefs.categoryName, orPanic_eq_ok] at h1 h2
  obtain ⟨hi, h1⟩ := List.getElem?_eq_some_iff.mp h1
  obtain ⟨hi', h2⟩ := List.getElem?_eq_some_iff.mp h2
  exact (h.nodup.getElem_inj_iff).mp (h1.trans h2.symm)

/-- The compiled unknown words of a good file. -/
def UnkOk (names : List Str) (ls : List UnkLine) (u : UnkDict) : Prop :=
  ∀ cat name, names[cat]? = some name → ∃ ids, u.lookupWordIds cat = .ok ids ∧
    ids.mapM u.wordEntry = .ok ((ls.filter fun l => l.name = name).map UnkLine.entry)

/-- A compiled matrix. -/
structure MatrixOk (F B : Nat) (costs : List CostLine) (m : ConnMatrix) : Prop where
  size : m.backwardSize.toNat = B
  length : m.costsData.length = 2 * (F * B)
  cost : ∀ f b : UInt16, f.toNat < F → b.toNat < B → m.cost f.toUInt32 b.toUInt32 = .ok (lastCost costs f.toNat b.toNat).toInt32

theorem low16 {x : Int32} {c : Int16} (h : c.toInt % 2 ^ 16 = x.toInt % 2 ^ 16) : x.toUInt32.toUInt16.toInt16 = c := by
  have h1 : ∀ x : Int32, x.toUInt32.toUInt16.toInt16 = x.toInt16 := by
    intro x
    apply Int16.toBitVec.inj
    show x.toBitVec.setWidth 16 = x.toBitVec.signExtend 16
    rw [BitVec.signExtend_eq_setWidth_of_le _ (by decide)]
  rw [h1, ← Int16.toInt_inj, Int32.toInt_toInt16]
  have h2 := c.le_toInt
  have h3 := c.toInt_lt
  rw [Int.bmod_def]
  split <;> omega

theorem matrixText_read {text : Str} {F B : Nat} {costs : List CostLine} (h : MatrixText text F B costs) (hF : F < 2 ^ 31) (hB : B < 2 ^ 31)
    (hids : ∀ l ∈ costs, l.forward < F ∧ l.backward < B) : MatrixRead text F B costs := by
  obtain ⟨header, ls, h1, h2, h3⟩ := h
  refine ⟨[], costs.map fun l => [(l.forward : Int), (l.backward : Int), l.cost.toInt], ⟨header :: ls, h1, .cons h2 ?_, ?_⟩, ?_⟩
  · clear h1 hids
    induction h3 with
    | nil => exact .nil
    | cons h _ ih => exact .cons h ih
  · intro row hrow z hz
    rcases List.mem_cons.mp hrow with rfl | hrow
    · simp only [List.mem_cons, List.not_mem_nil, or_false] at hz
      rcases hz with rfl | rfl <;> omega
    · obtain ⟨l, hl, rfl⟩ := List.mem_map.mp hrow
      have h4 := hids l hl
      have h5 := l.cost.le_toInt
      have h6 := l.cost.toInt_lt
      simp only [List.mem_cons, List.not_mem_nil, or_false] at hz
      rcases hz with rfl | rfl | rfl <;> omega
  · clear h3 hids
    induction costs with
    | nil => exact .nil
    | cons l costs ih => exact .cons ⟨_, _, rfl, rfl⟩ ih

theorem unkText_read {expected : Nat} {text : Str} {ls : List UnkLine} (h : UnkText expected text ls) : UnkRead expected text ls := by
  obtain ⟨texts, h1, h2⟩ := h
  refine ⟨texts, h1, ?_⟩
  clear h1
  induction h2 with
  | nil => exact .nil
  | @cons _ l _ _ h _ ih =>
    obtain ⟨left, right, cost, details, g1, g2, g3, g4, g5⟩ := h
    have a := l.left.toNat_lt
    have b := l.right.toNat_lt
    have c := l.cost.le_toInt
    have d := l.cost.toInt_lt
    exact .cons ⟨left, right, cost, details, g1, g2, _, _, _, g3, by omega, by omega, g4, by omega, by omega, g5, by omega, by omega, rfl⟩ ih

theorem wellFormed_says {env : BuildEnv} {kind : DictionaryKind} {src : SourceDir} {c : Contents} (h : WellFormed env kind src c) (hs : c.forward < 2 ^ 31 ∧ c.backward < 2 ^ 31)
    (hc : ∀ l ∈ c.costs, l.forward < c.forward ∧ l.backward < c.backward) : Says env kind src c := by
  obtain ⟨⟨b1, h1, h1'⟩, ⟨b2, h2, h2'⟩, ⟨b3, h3, h3'⟩, h4⟩ := h
  refine ⟨⟨b1, h1, defText_read h1'⟩, ⟨b2, h2, ?_⟩, ⟨b3, h3, matrixText_read h3' hs.1 hs.2 hc⟩, h4⟩
  exact unkText_read h2'

theorem matrixBytes_read {text : Str} {F B : Nat} {costs : List CostLine} (htext : MatrixRead text F B costs) (hF : F < 2 ^ 31) (hB : B < 2 ^ 31) :
    ∃ rows, parseMatrix text = .ok rows ∧ matrixBytes rows = matrixBytes (matrixRows F B costs) := by
  obtain ⟨junk, rows, h, hrows⟩ := htext
  obtain ⟨rows', e⟩ := numberLines_bits h
  rw [e] at h
  refine ⟨rows', numberLines_iff.mpr h, ?_⟩
  have e32 : ∀ (n : Nat) (x : Int32), (n : Int) = x.toInt → n < 2 ^ 31 → x = Int32.ofNat n := by
    intro n x hx hn
    rw [← Int32.toInt_inj, Int32.toInt_ofNat_of_lt hn, hx]
  match rows', e with
  | (x :: y :: junk') :: rest, e =>
    simp only [List.map_cons, List.cons.injEq] at e
    obtain ⟨⟨ex, ey, -⟩, erest⟩ := e
    obtain rfl := e32 F x ex hF
    obtain rfl := e32 B y ey hB
    unfold matrixBytes matrixRows
    simp only [List.getElem?_cons_zero, List.getElem?_cons_succ, orPanic_some, bind_ok]
    have key : ∀ (rest : List (List Int32)) (costs : List CostLine) (init : List Int16),
        List.Forall₂ (fun (row : List Int) (l : CostLine) => ∃ c rest, row = (l.forward : Int) :: (l.backward : Int) :: c :: rest ∧ l.cost.toInt % 2 ^ 16 = c % 2 ^ 16)
          (rest.map (·.map Int32.toInt)) costs →
        rest.foldlM (matrixStep (Int32.ofNat B).toUInt32) init =
          (costs.map fun l => [Int32.ofNat l.forward, Int32.ofNat l.backward, l.cost.toInt32]).foldlM (matrixStep (Int32.ofNat B).toUInt32) init := by
      intro rest
      induction rest with
      | nil => intro costs init h; cases h; rfl
      | cons row rest ih =>
        intro costs init h
        cases h with
        | @cons _ l _ costs h1 h2 =>
          obtain ⟨c, tail, h1, h3⟩ := h1
          match row, h1 with
          | f :: b :: c' :: tail', h1 =>
            simp only [List.map_cons, List.cons.injEq] at h1
            obtain ⟨ef, eb, rfl, -⟩ := h1
            have hf := f.toInt_lt
            have hb := b.toInt_lt
            obtain rfl := e32 l.forward f ef.symm (by omega)
            obtain rfl := e32 l.backward b eb.symm (by omega)
            rw [List.map_cons, List.foldlM_cons, List.foldlM_cons]
            have : matrixStep (Int32.ofNat B).toUInt32 init (Int32.ofNat l.forward :: Int32.ofNat l.backward :: c' :: tail') =
                matrixStep (Int32.ofNat B).toUInt32 init [Int32.ofNat l.forward, Int32.ofNat l.backward, l.cost.toInt32] := by
              unfold matrixStep
              simp only [List.getElem?_cons_zero, List.getElem?_cons_succ, orPanic_some, bind_ok, low16 h3, int16_cast]
            rw [this]
            congr 1
            funext s
            exact ih costs s h2
          | [], h1 => exact absurd h1 (by simp)
          | [_], h1 => exact absurd h1 (by simp)
          | [_, _], h1 => exact absurd h1 (by simp)
    rw [key rest costs _ (by rw [← erest]; exact hrows)]
  | [], e => exact absurd e (by simp)
  | [] :: _, e => exact absurd e (by simp)
  | [_] :: _, e => exact absurd e (by simp)

theorem matrix_ok {text : Str} {F B : Nat} {costs : List CostLine} (htext : MatrixRead text F B costs)
    (hids : ∀ l ∈ costs, l.forward < F ∧ l.backward < B) (hF : F < 2 ^ 31) (hB : B < 2 ^ 15) (hsize : F * B < 2 ^ 31) :
    ∃ bytes m, buildMatrix text = .ok bytes ∧ ConnMatrix.load bytes = .ok m ∧ MatrixOk F B costs m := by
  obtain ⟨bytes, m, h1, h2, h3, h4, h5⟩ := matrix_spec hsize hB hF costs hids
  refine ⟨bytes, m, ?_, h2, h3, h4, fun f b hf hb => ?_⟩
  · obtain ⟨rows, h6, h7⟩ := matrixBytes_read htext hF (by omega)
    unfold buildMatrix
    rw [h6, bind_ok, h7, h1]
  · have := h5 f.toNat b.toNat hf hb
    have e : ∀ x : UInt16, UInt32.ofNat x.toNat = x.toUInt32 := fun x => by
      apply UInt32.toNat_inj.mp
      have := x.toNat_lt
      simp only [UInt32.toNat_ofNat', UInt16.toNat_toUInt32]
      omega
    rwa [e, e] at this

/-- A prefix dictionary compiled from words. `look` says what details a word id selects. -/
structure WordsOk (items : List Item) (look : WordId → List Str → Prop) (d : PrefixDict) : Prop where
  keys : ∀ p ∈ d.da.keys, ∃ k : Str, p.1 = utf8 k
  find : ∃ find : Str → List WordEntry, (∀ k, d.findSurface k = .ok (find k)) ∧
    ∀ k, List.Forall₂ (fun e it => Match look ⟨k, e⟩ it) (find k) (items.filter (·.surface = k))

theorem WordsOk.known {items : List Item} {look : WordId → List Str → Prop} {d : PrefixDict} (h : WordsOk items look d) {s : Str} {e : WordEntry} (he : InDict d s e) :
    ∃ it ∈ items, Match look ⟨s, e⟩ it := by
  obtain ⟨find, h1, h2⟩ := h.find
  obtain ⟨es, h3, h4⟩ := he
  rw [h1] at h3
  cases h3
  obtain ⟨i, hi⟩ := List.getElem?_of_mem h4
  have := h2 s
  obtain ⟨hl, hi⟩ := List.getElem?_eq_some_iff.mp hi
  have hlen := this.length_eq
  refine ⟨(items.filter (·.surface = s))[i]'(by omega), List.mem_of_mem_filter (List.getElem_mem _), ?_⟩
  rw [← hi]
  exact List.Forall₂.get this hl (by omega)

theorem WordsOk.known' {items : List Item} {look : WordId → List Str → Prop} {d : PrefixDict} (h : WordsOk items look d) {it : Item} (hi : it ∈ items) :
    ∃ e, InDict d it.surface e ∧ Match look ⟨it.surface, e⟩ it := by
  obtain ⟨find, h1, h2⟩ := h.find
  have hm : it ∈ items.filter (·.surface = it.surface) := by simp [hi]
  obtain ⟨i, hi⟩ := List.getElem?_of_mem hm
  have := h2 it.surface
  obtain ⟨hl, hi⟩ := List.getElem?_eq_some_iff.mp hi
  have hlen := this.length_eq
  refine ⟨(find it.surface)[i]'(by omega), ⟨_, h1 _, List.getElem_mem _⟩, ?_⟩
  conv => rhs; rw [← hi]
  exact List.Forall₂.get this (by omega) hl

theorem WordsOk.dictOk {items : List Item} {look : WordId → List Str → Prop} {d : PrefixDict} (h : WordsOk items look d) {F B : Nat}
    (hin : ∀ it ∈ items, it.leftId.toNat < B ∧ it.rightId.toNat < F) : DictOk F B d := by
  intro k v hk
  obtain ⟨s, hs⟩ := h.keys _ (exactMatch_mem hk)
  simp only at hs
  subst hs
  refine ⟨⟨s, rfl⟩, ?_⟩
  obtain ⟨find, h1, h2⟩ := h.find
  have h3 := h1 s
  refine ⟨find s, ?_, fun e he => ?_⟩
  · rw [← h3]
    unfold PrefixDict.findSurface
    rw [hk]
  · obtain ⟨it, hi, hm⟩ := h.known (s := s) (e := e) ⟨_, h3, he⟩
    have := hin it hi
    have hl : e.leftId = it.leftId := hm.2.1
    have hr : e.rightId = it.rightId := hm.2.2.1
    exact ⟨by rw [hr]; exact this.2, by rw [hl]; exact this.1⟩

/-- What a token with this word id shows. -/
def Shows (dict : Dictionary) (user : Option UserDictionary) (w : WordId) (d : List Str) : Prop := detailsOf dict user w = .ok (some d)

theorem forall₂_of_map {α β γ : Type} {r : α → γ → Prop} {f : β → γ} {xs : List α} {ys : List β} (h : List.Forall₂ (fun x y => r x (f y)) xs ys) :
    List.Forall₂ r xs (ys.map f) := by
  induction h with
  | nil => exact .nil
  | cons h _ ih => exact .cons h ih

theorem filter_map_item {f : SourceWord → Item} (hf : ∀ w, (f w).surface = w.surface) (ws : List SourceWord) (k : Str) :
    (ws.map f).filter (·.surface = k) = (ws.filter (·.surface = k)).map f := by
  rw [List.filter_map]
  congr 1
  apply List.filter_congr
  intro w _
  simp [hf]

/-- The tables of a compiled dictionary whose lookups describe the words `ws`. -/
theorem system_words {out : DictFiles} {n : Nat} (hn : n < 2 ^ 32) {ws : List SourceWord} (h2 : ∀ p ∈ out.da.keys, ∃ k : Str, p.1 = utf8 k) {find : Str → List WordEntry}
    (h3 : ∀ k, out.prefixDict.findSurface k = .ok (find k))
    (h4 : ∀ k, List.Forall₂ (Describes (wordDetails out.wordsIdx out.words)) (find k) (ws.filter (·.surface = k))) (h5 : out.wordsIdx.length = 4 * n)
    (dict : Dictionary) (user : Option UserDictionary) (hi : dict.wordsIdxData = out.wordsIdx) (hw : dict.wordsData = out.words) :
    WordsOk (ws.map SourceWord.systemItem) (Shows dict user) ⟨out.da, out.vals, true⟩ := by
  refine ⟨h2, find, h3, fun k => ?_⟩
  rw [filter_map_item (fun _ => rfl)]
  apply forall₂_of_map
  have hsys : ∀ e ∈ find k, e.wordId.sys = true := fun e he => inDict_sys (d := out.prefixDict) ⟨_, h3 k, he⟩
  have := h4 k
  have hsur : ∀ w ∈ ws.filter (·.surface = k), w.surface = k := by
    intro w hw; simpa using (List.mem_filter.mp hw).2
  generalize ws.filter (·.surface = k) = ws at this hsur
  generalize find k = es at this hsys
  induction this with
  | nil => exact .nil
  | @cons e w es ws h _ ih =>
    refine .cons ?_ (ih (fun w hw => hsur w (by simp [hw])) fun e he => hsys e (by simp [he]))
    obtain ⟨hc, hl, hr, hd⟩ := h
    refine ⟨(hsur w (by simp)).symm, hl, hr, hc, ?_⟩
    have hs := hsys e (by simp)
    have hne : ¬ e.wordId.id.toNat = 2 ^ 32 - 1 := by
      intro he
      rw [he] at hd
      unfold wordDetails at hd
      rw [if_pos (by rw [h5]; omega)] at hd
      cases hd
    change detailsOf dict user e.wordId = .ok (some (shown w.details))
    unfold detailsOf
    rw [if_neg hne, hs]
    dsimp only
    unfold Dictionary.wordDetails
    rw [hi, hw]
    exact hd

theorem system_ok {yada : DaBuilder} (hy : YadaContract yada) {cfg : DictCfg} {rows : List Row}
    (ha : Acceptable cfg.normalizeDetails cfg.skipInvalid rows) (hf : Fits cfg.normalizeDetails rows) :
    ∃ out, buildDict yada cfg rows = .ok out ∧ ∀ (dict : Dictionary) (user : Option UserDictionary), dict.wordsIdxData = out.wordsIdx → dict.wordsData = out.words →
      WordsOk ((sourceWords cfg.normalizeDetails rows).map SourceWord.systemItem) (Shows dict user) ⟨out.da, out.vals, true⟩ := by
  obtain ⟨out, h1, h2, find, h3, h4, h5, -⟩ := buildDict_spec hy ha hf
  exact ⟨out, h1, fun dict user hi hw => system_words hf.numRows h2 h3 h4 h5 dict user hi hw⟩

theorem leftOver_nil {α : Type} (n : Nat) : leftOver n ([] : List α) = [] := by simp [leftOver]

theorem keptWords_filter (ws : List SourceWord) (k : Str) :
    (keptWords ws).filter (·.surface = k) = leftOver (ws.countP fun w => strLe w.surface k && w.surface != k) (ws.filter (·.surface = k)) := by
  unfold keptWords
  have hnd := List.nodup_dedup (ws.map (·.surface))
  have hmem : ∀ s, s ∈ (ws.map (·.surface)).dedup ↔ s ∈ ws.map (·.surface) := fun s => List.mem_dedup
  have hsur : ∀ (n : Nat) (s : Str), ∀ w ∈ leftOver n (ws.filter (·.surface = s)), w.surface = s := fun n s w hw => by
    simpa using (List.mem_filter.mp ((leftOver_sublist _ _).subset hw)).2
  by_cases hk : k ∈ ws.map (·.surface)
  · rw [← hmem] at hk
    generalize (ws.map (·.surface)).dedup = ss at hnd hk
    clear hmem
    induction ss with
    | nil => simp at hk
    | cons s ss ih =>
      rw [List.flatMap_cons, List.filter_append]
      obtain ⟨h1, h2⟩ := List.nodup_cons.mp hnd
      by_cases hs : s = k
      · subst hs
        rw [List.filter_eq_self.mpr (fun w hw => by simpa using hsur _ _ w hw)]
        conv => rhs; rw [← List.append_nil (leftOver _ _)]
        rw [List.append_cancel_left_eq, List.filter_eq_nil_iff]
        intro w hw
        obtain ⟨s', hs', hw⟩ := List.mem_flatMap.mp hw
        have := hsur _ _ w hw
        simp only [this, decide_eq_true_eq]
        rintro rfl
        exact h1 hs'
      · rw [List.filter_eq_nil_iff.mpr (fun w hw => by simpa [hsur _ _ w hw] using hs), List.nil_append]
        refine ih h2 ?_
        simpa [Ne.symm hs] using hk
  · have : ws.filter (·.surface = k) = [] := by
      rw [List.filter_eq_nil_iff]
      intro w hw
      simp only [decide_eq_true_eq]
      rintro rfl
      exact hk (List.mem_map_of_mem hw)
    rw [this, leftOver_nil, List.filter_eq_nil_iff]
    intro w hw
    obtain ⟨s', hs', hw⟩ := List.mem_flatMap.mp hw
    have := hsur _ _ w hw
    simp only [this, decide_eq_true_eq]
    rintro rfl
    exact hk ((hmem _).mp hs')

theorem mem_keptWords {ws : List SourceWord} {w : SourceWord} (h : w ∈ keptWords ws) : w ∈ ws := by
  unfold keptWords at h
  obtain ⟨s, -, h⟩ := List.mem_flatMap.mp h
  exact (List.mem_filter.mp ((leftOver_sublist _ _).subset h)).1

theorem system_kept {yada : DaBuilder} (hy : YadaContract yada) {cfg : DictCfg} {rows : List Row}
    (ha : Acceptable cfg.normalizeDetails cfg.skipInvalid rows) (hf : FitsApart cfg.normalizeDetails rows) :
    ∃ out, buildDict yada cfg rows = .ok out ∧ ∀ (dict : Dictionary) (user : Option UserDictionary), dict.wordsIdxData = out.wordsIdx → dict.wordsData = out.words →
      WordsOk ((keptWords (sourceWords cfg.normalizeDetails rows)).map SourceWord.systemItem) (Shows dict user) ⟨out.da, out.vals, true⟩ := by
  obtain ⟨out, h1, h2, find, h3, h4, h5⟩ := buildDict_leftOver hy ha hf
  exact ⟨out, h1, fun dict user hi hw => system_words hf.numRows h2 h3 (fun k => by rw [keptWords_filter]; exact h4 k) h5 dict user hi hw⟩

/-- The tables of a compiled user dictionary whose lookups describe the words `ws`. -/
theorem user_words {u : UserDictionary} {n : Nat} (hn : n < 2 ^ 26) {ws : List SourceWord} (h2 : ∀ p ∈ u.dict.da.keys, ∃ k : Str, p.1 = utf8 k) {find : Str → List WordEntry}
    (h3 : ∀ k, u.dict.findSurface k = .ok (find k)) (h4 : ∀ k, List.Forall₂ (UserDescribes u.wordDetails) (find k) (ws.filter (·.surface = k)))
    (h5 : u.wordsIdxData.length = 4 * n) (dict : Dictionary) : WordsOk (ws.map SourceWord.userItem) (Shows dict (some u)) u.dict := by
  refine ⟨h2, find, h3, fun k => ?_⟩
  rw [filter_map_item (fun _ => rfl)]
  apply forall₂_of_map
  have := h4 k
  have hsur : ∀ w ∈ ws.filter (·.surface = k), w.surface = k := by
    intro w hw; simpa using (List.mem_filter.mp hw).2
  generalize ws.filter (·.surface = k) = ws at this hsur
  generalize find k = es at this
  induction this with
  | nil => exact .nil
  | @cons e w es ws h _ ih =>
    refine .cons ?_ (ih fun w hw => hsur w (by simp [hw]))
    obtain ⟨hs, hc, hl, hr, hd⟩ := h
    refine ⟨(hsur w (by simp)).symm, hl, hr, hc, ?_⟩
    have hne : ¬ e.wordId.id.toNat = 2 ^ 32 - 1 := by
      intro he
      rw [he] at hd
      unfold UserDictionary.wordDetails at hd
      rw [if_pos (by rw [h5]; omega)] at hd
      cases hd
    change detailsOf dict (some u) e.wordId = .ok (some w.details)
    unfold detailsOf
    rw [if_neg hne, hs]
    exact hd

theorem user_ok {yada : DaBuilder} (hy : YadaContract yada) {kind : DictionaryKind} {c : Contents} {rows : List Row} (hg : GoodUser kind c rows) :
    ∃ u, buildUserDict yada (UserCfg.ofKind kind) rows = .ok u ∧ ∀ dict : Dictionary,
      WordsOk ((rows.filterMap (readUserRow kind)).map SourceWord.userItem) (Shows dict (some u)) u.dict := by
  obtain ⟨u, h1, h2, ⟨find, h3, h4⟩, h5, -⟩ := buildUserDict_spec hy hg.columns hg.readable hg.fits
  exact ⟨u, h1, user_words hg.fits.numRows h2 h3 h4 h5⟩

theorem user_kept {yada : DaBuilder} (hy : YadaContract yada) {kind : DictionaryKind} {c : Contents} {rows : List Row} (hg : GoodUserApart kind c rows) :
    ∃ u, buildUserDict yada (UserCfg.ofKind kind) rows = .ok u ∧ ∀ dict : Dictionary,
      WordsOk ((keptWords (rows.filterMap (readUserRow kind))).map SourceWord.userItem) (Shows dict (some u)) u.dict := by
  obtain ⟨u, h1, h2, ⟨find, h3, h4⟩, h5, -⟩ := buildUserDict_any hy hg.columns hg.readable hg.fits
  exact ⟨u, h1, user_words hg.fits.numRows h2 h3 (fun k => by rw [keptWords_filter]; exact h4 k) h5⟩

/-! ### Together -/

/-- The parts of a tokenizer were compiled from sources that fit together, and its lookups find the user words `us` and the system words `ws`. -/
structure TokOn (c : Contents) (user : Option (DictionaryKind × List Row)) (us ws : List SourceWord) (t : Tokenizer) : Prop where
  chars : CharsOk c.defs t.dictionary.charDefinitions
  unk : UnkOk t.dictionary.charDefinitions.names c.unk t.dictionary.unknownDictionary
  matrix : MatrixOk c.forward c.backward c.costs t.dictionary.costMatrix
  system : WordsOk (ws.map SourceWord.systemItem) (Shows t.dictionary t.userDictionary) t.dictionary.dict
  user : (user = none ∧ us = [] ∧ t.userDictionary = none) ∨
    ∃ u, t.userDictionary = some u ∧ WordsOk (us.map SourceWord.userItem) (Shows t.dictionary t.userDictionary) u.dict

/-- The parts of a tokenizer were compiled from good sources. -/
abbrev TokOk (c : Contents) (kind : DictionaryKind) (user : Option (DictionaryKind × List Row)) (t : Tokenizer) : Prop :=
  TokOn c user (userWords user) (sourceWords (sourceFormat kind).unify c.rows) t

theorem Good.apart {kind : DictionaryKind} {c : Contents} (h : Good kind c) : GoodApart kind c :=
  ⟨h.ordered, h.default, h.unknown, h.unkCount, h.unkIds, h.zero, h.sizes, h.cells, h.rows,
    ⟨h.fits.total, h.fits.numRows, h.fits.detailBytes, h.fits.surfaces, h.fits.noNul, h.fits.nonempty⟩, h.rowIds⟩

theorem GoodUser.apart {kind : DictionaryKind} {c : Contents} {rows : List Row} (h : GoodUser kind c rows) : GoodUserApart kind c rows :=
  ⟨h.columns, h.readable, ⟨h.fits.nonempty, h.fits.numRows, h.fits.surfaces, h.fits.detailBytes⟩, h.ids⟩

variable {c : Contents} {kind : DictionaryKind} {user : Option (DictionaryKind × List Row)} {us ws : List SourceWord} {t : Tokenizer}

theorem TokOn.rep (h : TokOn c user us ws t) : Rep ⟨us.map SourceWord.userItem ++ ws.map SourceWord.systemItem, c.defs, c.unk, c.costs⟩ t.env (Shows t.dictionary t.userDictionary) where
  known s e he := by
    rcases he with ⟨u, hu, he⟩ | he
    · rcases h.user with ⟨-, -, hn⟩ | ⟨u', hu', hw⟩
      · simp [Tokenizer.env, hn] at hu
      · simp only [Tokenizer.env, hu', Option.map_some, Option.some.injEq] at hu
        subst hu
        obtain ⟨it, h1, h2⟩ := hw.known he
        exact ⟨it, List.mem_append_left _ h1, h2⟩
    · obtain ⟨it, h1, h2⟩ := h.system.known he
      exact ⟨it, List.mem_append_right _ h1, h2⟩
  known' it hi := by
    rcases List.mem_append.mp hi with hi | hi
    · rcases h.user with ⟨-, hn, -⟩ | ⟨u', hu', hw⟩
      · simp [hn] at hi
      · obtain ⟨e, h1, h2⟩ := hw.known' hi
        exact ⟨e, .inl ⟨u'.dict, by simp [Tokenizer.env, hu'], h1⟩, h2⟩
    · obtain ⟨e, h1, h2⟩ := h.system.known' hi
      exact ⟨e, .inr h1, h2⟩
  cats := h.chars.cats
  defs := h.chars.defs
  inj := h.chars.inj
  unk id name hn := by
    change t.dictionary.charDefinitions.categoryName id = .ok name at hn
    simp only [CharDefs.categoryName, orPanic_eq_ok] at hn
    exact h.unk id name hn
  unkShown := by simp [Shows, detailsOf]
  listed s := by
    obtain ⟨find, h1, h2⟩ := h.system.find
    rcases h.user with ⟨-, hn, hn'⟩ | ⟨u', hu', hw⟩
    · refine ⟨_, ⟨[], find s, .inl ⟨by simp [Tokenizer.env, hn'], rfl⟩, h1 s, rfl⟩, ?_⟩
      have := h2 s
      simpa [hn] using this
    · obtain ⟨find', h1', h2'⟩ := hw.find
      refine ⟨_, ⟨find' s, find s, .inr ⟨u'.dict, by simp [Tokenizer.env, hu'], h1' s⟩, h1 s, rfl⟩, ?_⟩
      simp only [List.filter_append]
      exact List.rel_append (h2' s) (h2 s)
  look id d d' h1 h2 := by
    unfold Shows at h1 h2
    rw [h1] at h2
    simpa using h2

theorem TokOn.repCost (h : TokOn c user us ws t) (hg : GoodApart kind c) (hws : ∀ w ∈ ws, c.Inside w.leftId w.rightId) (hus : ∀ w ∈ us, c.Inside w.leftId w.rightId) :
    RepCost ⟨us.map SourceWord.userItem ++ ws.map SourceWord.systemItem, c.defs, c.unk, c.costs⟩ t.dictionary.costMatrix c.forward c.backward where
  words it hi := by
    rcases List.mem_append.mp hi with hi | hi
    · obtain ⟨w, hw, rfl⟩ := List.mem_map.mp hi
      exact hus w hw
    · obtain ⟨w, hw, rfl⟩ := List.mem_map.mp hi
      exact hws w hw
  unk := hg.unkIds
  zero := by simpa [Contents.Inside] using hg.zero
  cost := h.matrix.cost

theorem mem_names {file : List DefLine} {d : CharDefs} (h : CharsOk file d) {id : Nat} {name : Str} (hn : d.categoryName id = .ok name) :
    name ∈ file.flatMap DefLine.names := by
  simp only [CharDefs.categoryName, orPanic_eq_ok] at hn
  have := List.mem_of_getElem? hn
  rw [h.names, mem_firsts] at this
  exact this

theorem TokOn.complete (h : TokOn c user us ws t) (hg : GoodApart kind c) : Complete t := by
  intro ch
  obtain ⟨ids, h1, h2⟩ := h.chars.cats ch
  refine ⟨ids, h1, ?_, fun cat hcat => ?_⟩
  · rintro rfl
    simp only [List.mapM_nil, pure_eq_ok, Except.ok.injEq] at h2
    unfold categoriesOf at h2
    dsimp only at h2
    split at h2
    · simp at h2
    · next hne =>
      apply hne
      exact ⟨h2.symm, hg.default⟩
  · obtain ⟨name, -, hn⟩ := mem_mapM_ok h2 hcat
    obtain ⟨data, -, hd⟩ := h.chars.defs cat name hn
    refine ⟨⟨data, hd⟩, ?_⟩
    obtain ⟨l, hl, hln⟩ := hg.unknown name (mem_names h.chars hn)
    simp only [CharDefs.categoryName, orPanic_eq_ok] at hn
    obtain ⟨wids, h3, h4⟩ := h.unk cat name hn
    refine ⟨wids, h3, ?_⟩
    have hm : l.entry ∈ (c.unk.filter fun l => l.name = name).map UnkLine.entry := List.mem_map.mpr ⟨l, by simp [hl, hln], rfl⟩
    obtain ⟨i, hi⟩ := List.getElem?_of_mem hm
    obtain ⟨id, h5, h6⟩ := (mapM_get h4 i).2 _ hi
    exact ⟨id, List.mem_of_getElem? h5, _, h6⟩

theorem TokOn.consistent (h : TokOn c user us ws t) (hg : GoodApart kind c) (hws : ∀ w ∈ ws, c.Inside w.leftId w.rightId) (hus : ∀ w ∈ us, c.Inside w.leftId w.rightId) : Consistent t := by
  have hc := h.repCost hg hws hus
  refine ⟨c.forward, c.backward, hc.zero.2, hc.zero.1, by have := hg.sizes.2.2; omega, h.matrix.size, by rw [h.matrix.length], ?_, ?_, ?_⟩
  · exact h.system.dictOk fun it hi => hc.words it (List.mem_append_right _ hi)
  · intro u hu
    rcases h.user with ⟨-, -, hn⟩ | ⟨u', hu', hw⟩
    · rw [hn] at hu; cases hu
    · rw [hu'] at hu; cases hu
      exact hw.dictOk fun it hi => hc.words it (List.mem_append_left _ hi)
  · intro ch
    obtain ⟨ids, h1, h2⟩ := h.chars.cats ch
    refine ⟨ids, h1, fun cat hcat => ?_⟩
    obtain ⟨name, -, hn⟩ := mem_mapM_ok h2 hcat
    obtain ⟨data, -, hd⟩ := h.chars.defs cat name hn
    refine ⟨⟨data, hd⟩, ?_⟩
    simp only [CharDefs.categoryName, orPanic_eq_ok] at hn
    obtain ⟨wids, h3, h4⟩ := h.unk cat name hn
    refine ⟨wids, h3, fun id hid => ?_⟩
    obtain ⟨e, he, hwe⟩ := mem_mapM_ok h4 hid
    obtain ⟨l, hl, rfl⟩ := List.mem_map.mp he
    have := hg.unkIds l (List.mem_of_mem_filter hl)
    exact ⟨_, hwe, this.2, this.1⟩

theorem user_inside (hu : ∀ k rows, user = some (k, rows) → GoodUserApart k c rows) : ∀ w ∈ userWords user, c.Inside w.leftId w.rightId := by
  intro w hw
  cases user with
  | none => simp [userWords] at hw
  | some p => exact (hu p.1 p.2 rfl).ids w hw

theorem TokOk.complete (h : TokOk c kind user t) (hg : Good kind c) : Complete t := TokOn.complete h (Good.apart hg)

theorem TokOk.consistent (h : TokOk c kind user t) (hg : Good kind c) (hu : ∀ k rows, user = some (k, rows) → GoodUser k c rows) : Consistent t :=
  TokOn.consistent h (Good.apart hg) hg.rowIds (user_inside fun k rows h => GoodUser.apart (hu k rows h))

/-! ### Compiling -/

theorem readRows_of {env : BuildEnv} {cfg : BuildCfg} {files : List (List UInt8 × List Row)} (h : ∀ f ∈ files, env.csv cfg.flexible cfg.encoding f.1 = some f.2) :
    env.readRows cfg (files.map fun f => some f.1) = .ok (files.flatMap (·.2)) := by
  induction files with
  | nil => rfl
  | cons f files ih =>
    rw [List.map_cons, BuildEnv.readRows, h f (by simp)]
    dsimp only
    rw [ih fun f hf => h f (by simp [hf])]
    rfl

theorem compile_on {env : BuildEnv} (hh : ∀ index, (env.hashOrder index).Perm index) {src : SourceDir} (hs : Says env kind src c) (hg : GoodApart kind c)
    (ho : ∃ out, buildDict env.yada (BuildCfg.ofKind kind).dict c.rows = .ok out ∧ ∀ (dict : Dictionary) (user : Option UserDictionary),
      dict.wordsIdxData = out.wordsIdx → dict.wordsData = out.words → WordsOk (ws.map SourceWord.systemItem) (Shows dict user) ⟨out.da, out.vals, true⟩)
    (hu : ∃ u, compileUser env.yada user = .ok u ∧ ∀ dict, (user = none ∧ us = [] ∧ u = none) ∨
      ∃ u', u = some u' ∧ WordsOk (us.map SourceWord.userItem) (Shows dict u) u'.dict) :
    ∃ parts m u, compile env kind src = .ok parts ∧ ConnMatrix.load parts.matrix = .ok m ∧ compileUser env.yada user = .ok u ∧
      ∀ mode, TokOn c user us ws ⟨parts.dictionary m, u, mode⟩ := by
  obtain ⟨⟨b1, hb1, ht1⟩, ⟨b2, hb2, ht2⟩, ⟨b3, hb3, ht3⟩, files, hf1, hf2, hf3⟩ := hs
  obtain ⟨d, ⟨b, hpb, hbd⟩, hchars⟩ := chars_ok ht1 hg.ordered
  obtain ⟨unk, hunk, hunkOk⟩ := (c69_unk d.names _ (by cases kind <;> decide) _).1 _ ht2 hg.unkCount
  obtain ⟨bytes, m, hm1, hm2, hm3⟩ := matrix_ok ht3 hg.cells hg.sizes.1 hg.sizes.2.1 hg.sizes.2.2
  have hcfg : (BuildCfg.ofKind kind).encoding = (sourceFormat kind).encoding ∧ (BuildCfg.ofKind kind).flexible = (sourceFormat kind).flexible ∧
      (BuildCfg.ofKind kind).dict.normalizeDetails = (sourceFormat kind).unify ∧ (BuildCfg.ofKind kind).dict.skipInvalid = (sourceFormat kind).skip ∧
      (BuildCfg.ofKind kind).unkFields = (sourceFormat kind).unkColumns := by cases kind <;> exact ⟨rfl, rfl, rfl, rfl, rfl⟩
  obtain ⟨e1, e2, e3, e4, e5⟩ := hcfg
  obtain ⟨out, ho1, ho2⟩ := ho
  have hc1 : env.compileChardef (BuildCfg.ofKind kind) src = .ok d := by
    unfold BuildEnv.compileChardef
    rw [hb1, e1]
    simp only [BuildEnv.readText, bind_ok]
    rw [hpb, bind_ok]
    exact hbd _ (hh _)
  have hc2 : env.compileUnk (BuildCfg.ofKind kind) src d = .ok unk := by
    unfold BuildEnv.compileUnk
    rw [hb2, e1, e5]
    simp only [BuildEnv.readText, bind_ok]
    exact hunk
  have hc3 : env.readRows (BuildCfg.ofKind kind) src.csvs = .ok c.rows := by
    rw [hf1, hf3]
    exact readRows_of (by rw [e1, e2]; exact hf2)
  have hc4 : env.compileMatrix (BuildCfg.ofKind kind) src = .ok bytes := by
    unfold BuildEnv.compileMatrix
    rw [hb3, e1]
    simp only [BuildEnv.readText, bind_ok]
    exact hm1
  obtain ⟨u, hu1, hu2⟩ := hu
  refine ⟨⟨d, unk, out, bytes⟩, m, u, ?_, hm2, hu1, fun mode => ⟨hchars, hunkOk, hm3, ?_, hu2 _⟩⟩
  · unfold compile
    simp only [hc1, hc2, hc3, hc4, ho1, bind_ok, pure_eq_ok]
  · exact ho2 _ _ rfl rfl

theorem ofKind_format (kind : DictionaryKind) : (BuildCfg.ofKind kind).dict.normalizeDetails = (sourceFormat kind).unify ∧
    (BuildCfg.ofKind kind).dict.skipInvalid = (sourceFormat kind).skip := by cases kind <;> exact ⟨rfl, rfl⟩

theorem compile_good {env : BuildEnv} (hy : YadaContract env.yada) (hh : ∀ index, (env.hashOrder index).Perm index) {src : SourceDir}
    (hs : Says env kind src c) (hg : Good kind c) (hu : ∀ k rows, user = some (k, rows) → GoodUser k c rows) :
    ∃ parts m u, compile env kind src = .ok parts ∧ ConnMatrix.load parts.matrix = .ok m ∧ compileUser env.yada user = .ok u ∧
      ∀ mode, TokOk c kind user ⟨parts.dictionary m, u, mode⟩ := by
  obtain ⟨e3, e4⟩ := ofKind_format kind
  refine compile_on hh hs (Good.apart hg) ?_ ?_
  · have := system_ok hy (cfg := (BuildCfg.ofKind kind).dict) (rows := c.rows) (by rw [e3, e4]; exact hg.rows) (by rw [e3]; exact hg.fits)
    rwa [e3] at this
  · cases user with
    | none => exact ⟨none, rfl, fun _ => .inl ⟨rfl, rfl, rfl⟩⟩
    | some p =>
      obtain ⟨u, h1, h2⟩ := user_ok hy (hu p.1 p.2 rfl)
      refine ⟨some u, ?_, fun dict => .inr ⟨u, rfl, h2 dict⟩⟩
      unfold compileUser
      dsimp only
      rw [h1]
      rfl

/-- However many words share a surface, the tables are those of what the compiled format keeps. -/
theorem compile_kept {env : BuildEnv} (hy : YadaContract env.yada) (hh : ∀ index, (env.hashOrder index).Perm index) {src : SourceDir}
    (hs : Says env kind src c) (hg : GoodApart kind c) (hu : ∀ k rows, user = some (k, rows) → GoodUserApart k c rows) :
    ∃ parts m u, compile env kind src = .ok parts ∧ ConnMatrix.load parts.matrix = .ok m ∧ compileUser env.yada user = .ok u ∧
      ∀ mode, TokOn c user (keptWords (userWords user)) (keptWords (sourceWords (sourceFormat kind).unify c.rows)) ⟨parts.dictionary m, u, mode⟩ := by
  obtain ⟨e3, e4⟩ := ofKind_format kind
  refine compile_on hh hs hg ?_ ?_
  · have := system_kept hy (cfg := (BuildCfg.ofKind kind).dict) (rows := c.rows) (by rw [e3, e4]; exact hg.rows) (by rw [e3]; exact hg.fits)
    rwa [e3] at this
  · cases user with
    | none => exact ⟨none, rfl, fun _ => .inl ⟨rfl, rfl, rfl⟩⟩
    | some p =>
      obtain ⟨u, h1, h2⟩ := user_kept hy (hu p.1 p.2 rfl)
      refine ⟨some u, ?_, fun dict => .inr ⟨u, rfl, h2 dict⟩⟩
      unfold compileUser
      dsimp only
      rw [h1]
      rfl

end Verif.Model
