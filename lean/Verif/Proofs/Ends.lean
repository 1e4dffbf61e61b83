import Verif.Spec.Ends
import Verif.Proofs.Reported
import Verif.Props.Lattice
/-! Proofs about `Ends` and `ReturnsOrPanics`. -/
namespace Verif.Model
open Verif.Spec

theorem rp_ok {α : Type} (a : α) : ReturnsOrPanics (.ok a : R α) := .inl ⟨a, rfl⟩

theorem rp_panic {α : Type} : ReturnsOrPanics (.error .panic : R α) := .inr rfl

theorem rp_orPanic {α : Type} (o : Option α) : ReturnsOrPanics (orPanic o) := by
  cases o
  · exact rp_panic
  · exact rp_ok _

theorem rp_bind {α β : Type} {m : R α} {k : α → R β} (h : ReturnsOrPanics m) (hk : ∀ a, m = .ok a → ReturnsOrPanics (k a)) : ReturnsOrPanics (m >>= k) := by
  rcases h with ⟨a, h⟩ | h
  · rw [h, bind_ok]; exact hk a h
  · rw [h, bind_error]; exact .inr rfl

theorem rp_foldlM {α σ : Type} {f : σ → α → R σ} (xs : List α) : ∀ (s : σ), (∀ x ∈ xs, ∀ s, ReturnsOrPanics (f s x)) → ReturnsOrPanics (xs.foldlM f s) := by
  induction xs with
  | nil => intro s _; exact rp_ok _
  | cons x xs ih =>
    intro s h
    rw [List.foldlM_cons]
    exact rp_bind (h x (by simp) s) fun s' _ => ih s' fun y hy => h y (by simp [hy])

theorem rp_mapM {α β : Type} {f : α → R β} (xs : List α) (h : ∀ x ∈ xs, ReturnsOrPanics (f x)) : ReturnsOrPanics (xs.mapM f) := by
  induction xs with
  | nil => exact rp_ok _
  | cons x xs ih =>
    rw [List.mapM_cons]
    refine rp_bind (h x (by simp)) fun b _ => rp_bind (ih fun y hy => h y (by simp [hy])) fun bs _ => rp_ok _

/-! ### Tokenization -/

theorem rp_entriesAt (d : PrefixDict) (v : UInt32) : ReturnsOrPanics (d.entriesAt v) := by
  unfold PrefixDict.entriesAt
  refine rp_bind (rp_orPanic _) fun _ _ => rp_mapM _ fun i _ => rp_bind (rp_orPanic _) fun _ _ => ?_
  unfold WordEntry.deserialize
  repeat' first | exact rp_ok _ | refine rp_bind (rp_orPanic _) fun _ _ => ?_

theorem rp_prefix (d : PrefixDict) (s : Str) : ReturnsOrPanics (d.prefix s) := by
  unfold PrefixDict.prefix
  exact rp_bind (rp_mapM _ fun x _ => rp_bind (rp_entriesAt _ _) fun _ _ => rp_ok _) fun _ _ => rp_ok _

theorem rp_dictEdges (d : PrefixDict) (start : Nat) (suffix : Str) : ReturnsOrPanics (dictEdges d start suffix) := by
  unfold dictEdges
  exact rp_bind (rp_prefix _ _) fun _ _ => rp_mapM _ fun _ _ => rp_bind (rp_orPanic _) fun _ _ => rp_ok _

theorem rp_eval (t : LookupTable) (n : Nat) : ReturnsOrPanics (t.eval n) := by
  unfold LookupTable.eval
  split
  · exact rp_orPanic _
  · exact rp_panic
  · exact rp_orPanic _

theorem rp_lookup (cd : CharDefs) (c : Char) : ReturnsOrPanics (cd.lookupCategories c) := rp_eval _ _

theorem rp_countGroup (cd : CharDefs) (cat ord : Nat) (s : Str) : ReturnsOrPanics (countGroup cd cat ord s) := by
  induction s with
  | nil => exact rp_ok _
  | cons c cs ih =>
    unfold countGroup
    refine rp_bind (rp_lookup _ _) fun _ _ => ?_
    split
    · exact rp_bind ih fun _ _ => rp_ok _
    · exact rp_ok _

theorem rp_unkEdges (cd : CharDefs) (unk : UnkDict) (start : Nat) (suffix : Str) (found : Bool) (ue : Option Nat) (cat ord : Nat) :
    ReturnsOrPanics (unkEdges cd unk start suffix found ue cat ord) := by
  unfold unkEdges unknownNumChars
  refine rp_bind (rp_bind (rp_orPanic _) fun _ _ => ?_) fun _ _ => ?_
  · split
    · split
      · exact rp_bind (rp_countGroup _ _ _ _) fun _ _ => rp_ok _
      · exact rp_ok _
    · exact rp_ok _
  · split
    · exact rp_bind (rp_orPanic _) fun _ _ => rp_bind (rp_mapM _ fun _ _ => rp_bind (rp_orPanic _) fun _ _ => rp_ok _) fun _ _ => rp_ok _
    · exact rp_ok _

theorem rp_allUnkEdges (env : LatticeEnv) (start : Nat) (suffix : Str) (found : Bool) (ue : Option Nat) : ReturnsOrPanics (allUnkEdges env start suffix found ue) := by
  unfold allUnkEdges
  split
  · exact rp_ok _
  · exact rp_bind (rp_lookup _ _) fun _ _ => rp_foldlM _ _ fun _ _ _ => rp_bind (rp_unkEdges _ _ _ _ _ _ _ _) fun _ _ => rp_ok _

theorem rp_gen (env : LatticeEnv) (text : Str) : ReturnsOrPanics (gen env text) := by
  unfold gen
  refine rp_bind (rp_foldlM _ _ fun start _ st => ?_) fun _ _ => rp_ok _
  unfold genStep
  split
  · refine rp_bind (rp_orPanic _) fun suffix _ => rp_bind ?_ fun _ _ => rp_ok _
    unfold newEdges userEdges
    refine rp_bind ?_ fun _ _ => rp_bind (rp_dictEdges _ _ _) fun _ _ => ?_
    · split
      · exact rp_dictEdges _ _ _
      · exact rp_ok _
    · split
      · exact rp_bind (rp_allUnkEdges _ _ _ _ _) fun _ _ => rp_ok _
      · exact rp_ok _
  · exact rp_ok _

theorem rp_cost (m : ConnMatrix) (a b : UInt32) : ReturnsOrPanics (m.cost a b) := by
  unfold ConnMatrix.cost
  exact rp_bind (rp_orPanic _) fun _ _ => rp_bind (rp_orPanic _) fun _ _ => rp_ok _

theorem rp_calcE (m : ConnMatrix) (mode : Mode) (len : Nat) (es edges : List Edge) : ReturnsOrPanics (calcE m mode len es edges) := by
  unfold calcE
  refine rp_foldlM _ _ fun i _ _ => rp_foldlM _ _ fun j _ _ => ?_
  unfold relaxE
  refine rp_bind (rp_orPanic _) fun _ _ => rp_bind (rp_mapM _ fun _ _ => ?_) fun _ _ => ?_
  · unfold leftCostE
    exact rp_bind (rp_orPanic _) fun _ _ => rp_bind (rp_cost _ _ _) fun _ _ => rp_ok _
  · split
    · exact rp_ok _
    · exact rp_ok _

theorem rp_sentenceOffsets (env : LatticeEnv) (m : ConnMatrix) (text : Str) : ReturnsOrPanics (sentenceOffsets env m text) := by
  unfold sentenceOffsets
  refine rp_bind (rp_gen _ _) fun es hg => rp_bind (rp_calcE _ _ _ _ _) fun edges hc => ?_
  obtain ⟨ue, hI⟩ := gen_inv hg
  have hb := gen_bounds hg
  have hB := calcE_settled (fun e he => (hb e he).1) (fun e he => (hb e he).2.1) (fun e he => (hb e he).2.2) hc
  rcases tokensOffset_spec hI hB ⟨0, edges, [], []⟩ rfl with ⟨_, _, hw, _⟩ | ⟨_, hw⟩
  · rw [hw]; exact rp_ok _
  · rw [hw]; exact rp_ok _

theorem rp_emit (s : Str) (offs : List (Nat × WordId)) : ∀ st, ReturnsOrPanics (emitTokens s st offs) := by
  induction offs with
  | nil => intro st; exact rp_ok _
  | cons o offs ih =>
    intro st
    obtain ⟨a, b⟩ := o
    unfold emitTokens
    exact rp_bind (rp_orPanic _) fun _ _ => ih _

theorem rp_sentences (t : Tokenizer) : ∀ (ss : List Str) (st : TokState), (∀ s ∈ ss, s ≠ []) → LatInv st.lattice → ReturnsOrPanics (ss.foldlM t.sentenceStep st) := by
  intro ss
  induction ss with
  | nil => intro st _ _; exact rp_ok _
  | cons s ss ih =>
    intro st hne hl
    rw [List.foldlM_cons]
    refine rp_bind ?_ fun st' h => ih st' (fun x hx => hne x (by simp [hx])) (sentenceStep_spec hl (hne s (by simp)) h).1
    rw [sentenceStep_eq t hl (hne s (by simp))]
    exact rp_bind (rp_sentenceOffsets _ _ _) fun _ _ => rp_emit _ _ _

theorem rp_tokenize (t : Tokenizer) (text : Str) : ReturnsOrPanics (t.tokenize text) := by
  unfold Tokenizer.tokenize
  exact rp_bind (rp_sentences t _ _ (splitInclusive_ne _ _) latInv_default) fun _ _ => rp_ok _

/-! ### Filters -/

theorem matchLen_pos {f : Mapping} {s : Str} {n : Nat} (h : f.matchLen s = some n) : 0 < n := by
  unfold Mapping.matchLen at h
  rw [Option.map_eq_some_iff] at h
  obtain ⟨x, hx, rfl⟩ := h
  have hm := List.mem_of_getLast? hx
  unfold DoubleArray.commonPrefixSearch at hm
  rw [List.mem_filterMap] at hm
  obtain ⟨i, -, hi⟩ := hm
  rw [Option.map_eq_some_iff] at hi
  obtain ⟨v, -, rfl⟩ := hi
  exact Nat.succ_pos i

theorem slice_stop {s m : Str} {a b : Nat} (h : sliceBytes s a b = some m) : b ≤ blen s := by
  obtain ⟨p, r, rfl, rfl, rfl⟩ := sliceBytes_eq_some.mp h
  simp only [blen_append]; omega

theorem drop_stop {s cs : Str} {c : Char} {a : Nat} (h : dropBytes s a = some (c :: cs)) : a + c.utf8Size ≤ blen s := by
  obtain ⟨p, rfl, rfl⟩ := dropBytes_eq_some.mp h
  simp only [blen_append, blen]; omega

theorem rp_mappingLoop (f : Mapping) (text : Str) : ∀ (fuel start : Nat) (result : Str) (t : OffsetTable), start ≤ blen text → blen text < start + fuel →
    ReturnsOrPanics (f.loop text fuel start result t) := by
  intro fuel
  induction fuel with
  | zero => intro start result t h1 h2; omega
  | succ fuel ih =>
    intro start result t h1 h2
    unfold Mapping.loop
    split
    · refine rp_bind (rp_orPanic _) fun suffix hs => ?_
      split
      · rename_i n hn
        have := matchLen_pos hn
        exact rp_bind (rp_orPanic _) fun _ h => rp_bind (rp_orPanic _) fun _ _ => ih _ _ _ (slice_stop (orPanic_eq_ok.mp h)) (by omega)
      · split
        · rename_i c cs _
          have := c.utf8Size_pos
          exact ih _ _ _ (drop_stop (orPanic_eq_ok.mp hs)) (by omega)
        · exact rp_ok _
    · exact rp_ok _

theorem rp_tokenLoop (f : Mapping) (text : Str) : ∀ (fuel start : Nat) (result : Str), start ≤ blen text → blen text < start + fuel → ReturnsOrPanics (f.tokenLoop text fuel start result) := by
  intro fuel
  induction fuel with
  | zero => intro start result h1 h2; omega
  | succ fuel ih =>
    intro start result h1 h2
    unfold Mapping.tokenLoop
    split
    · refine rp_bind (rp_orPanic _) fun suffix hs => ?_
      split
      · rename_i n hn
        have := matchLen_pos hn
        exact rp_bind (rp_orPanic _) fun _ h => rp_bind (rp_orPanic _) fun _ _ => ih _ _ (slice_stop (orPanic_eq_ok.mp h)) (by omega)
      · split
        · rename_i c cs _
          have := c.utf8Size_pos
          exact ih _ _ (drop_stop (orPanic_eq_ok.mp hs)) (by omega)
        · exact rp_ok _
    · exact rp_ok _

theorem rp_replaceFrom (f : RegexFilter) (text : Str) (ms : List RegexMatch) : ∀ last, ReturnsOrPanics (f.replaceFrom text last ms) := by
  induction ms with
  | nil => intro last; exact rp_orPanic _
  | cons m ms ih =>
    intro last
    unfold RegexFilter.replaceFrom
    exact rp_bind (rp_orPanic _) fun _ _ => rp_bind (ih _) fun _ _ => rp_ok _

theorem rp_charFilter {env : FilterEnv} {s : CharFilterSetting} {f : CharFilter} (h : s.new env = .ok f) (text : Str) : ReturnsOrPanics (f text) := by
  cases s with
  | iterationMark => cases h; exact rp_ok _
  | mapping m =>
    simp only [CharFilterSetting.new, bind_eq_ok, pure_eq_ok] at h
    obtain ⟨g, -, h⟩ := h
    cases h
    exact rp_mappingLoop g text _ _ _ _ (Nat.zero_le _) (by omega)
  | regex p r =>
    simp only [CharFilterSetting.new] at h
    cases hp : env.regex p with
    | none => rw [hp] at h; cases h
    | some find =>
      rw [hp] at h
      cases h
      unfold RegexFilter.filter RegexFilter.apply RegexFilter.step
      exact rp_bind (rp_foldlM _ _ fun _ _ _ => rp_bind (rp_orPanic _) fun _ _ => rp_ok _) fun _ _ => rp_bind (rp_replaceFrom _ _ _ _) fun _ _ => rp_ok _
  | unicodeNormalize => cases h; exact rp_ok _

theorem rp_correct (t : OffsetTable) (o n : Nat) : ReturnsOrPanics (t.correct o n) := by
  unfold OffsetTable.correct
  split
  · exact rp_ok _
  · split
    · exact rp_ok _
    · exact rp_bind (rp_orPanic _) fun _ _ => rp_ok _

theorem rp_retain (p : FToken → R Bool) (ts : List FToken) (h : ∀ t ∈ ts, ReturnsOrPanics (p t)) : ReturnsOrPanics (retain p ts) := by
  induction ts with
  | nil => exact rp_ok _
  | cons t ts ih =>
    unfold retain
    exact rp_bind (h t (by simp)) fun _ _ => rp_bind (ih fun x hx => h x (by simp [hx])) fun _ _ => rp_ok _

theorem rp_rewrite (f : FToken → R Str) (ts : List FToken) (h : ∀ t ∈ ts, ReturnsOrPanics (f t)) : ReturnsOrPanics (rewriteText f ts) :=
  rp_mapM _ fun t ht => rp_bind (h t ht) fun _ _ => rp_ok _

theorem rp_overwrite (parts : List Str) : ∀ (i : Nat) (base : List Str), ReturnsOrPanics (overwriteFrom i parts base) := by
  induction parts with
  | nil => intro i base; exact rp_ok _
  | cons p parts ih =>
    intro i base
    unfold overwriteFrom
    split
    · exact ih _ _
    · exact rp_panic

theorem rp_tag (t : FToken) : ReturnsOrPanics t.tag := by
  unfold FToken.tag
  exact rp_bind (rp_orPanic _) fun _ _ => rp_bind (rp_overwrite _ _ _) fun _ _ => rp_ok _

theorem rp_form (column : Option Nat) (t : FToken) : ReturnsOrPanics (formText column t) := by
  unfold formText
  refine rp_bind (rp_orPanic _) fun _ _ => ?_
  split
  · exact rp_ok _
  · split
    · exact rp_orPanic _
    · exact rp_ok _

theorem rp_isKatakana (block : Char → Option (Nat × Nat)) (s : Str) : ReturnsOrPanics (isKatakana block s) := by
  induction s with
  | nil => exact rp_ok _
  | cons c cs ih =>
    unfold isKatakana
    refine rp_bind (rp_orPanic _) fun _ _ => ?_
    split
    · exact rp_ok _
    · exact ih

theorem rp_numeralStep (c : Char) (next : Option Char) (a b : Str) : ReturnsOrPanics (numeralStep c next a b) := by
  unfold numeralStep
  split
  · exact rp_ok _
  · split
    · unfold NumberUnit.apply adjustDigits
      refine rp_bind ?_ fun _ _ => rp_ok _
      dsimp only
      split
      · exact rp_bind (rp_orPanic _) fun _ _ => rp_ok _
      · exact rp_panic
    · exact rp_ok _

theorem rp_numerals (cs : List Char) : ∀ a b, ReturnsOrPanics (numeralLoop cs a b) := by
  induction cs with
  | nil => intro a b; exact rp_ok _
  | cons c cs ih =>
    intro a b
    unfold numeralLoop
    exact rp_bind (rp_numeralStep _ _ _ _) fun _ _ => ih _ _

theorem rp_compound (f : CompoundWord) (ts : List FToken) : ReturnsOrPanics (f.apply ts) := by
  unfold CompoundWord.apply
  refine rp_bind (rp_foldlM _ _ fun t _ st => ?_) fun _ _ => rp_ok _
  unfold CompoundWord.step CompoundWord.place
  refine rp_bind (rp_tag _) fun _ _ => ?_
  split
  · split
    · exact rp_ok _
    · unfold CompoundWord.concat CompoundWord.details
      refine rp_bind (rp_bind ?_ fun _ _ => rp_ok _) fun _ _ => rp_ok _
      split
      · exact rp_overwrite _ _ _
      · exact rp_ok _
  · split
    · exact rp_ok _
    · exact rp_ok _

theorem rp_tokenFilter {env : FilterEnv} {s : TokenFilterSetting} {f : TokenFilter} (h : s.new env = .ok f) (ts : List FToken) : ReturnsOrPanics (f ts) := by
  cases s with
  | japaneseBaseForm kind => cases h; exact rp_rewrite _ _ fun _ _ => rp_form _ _
  | japaneseReadingForm kind => cases h; exact rp_rewrite _ _ fun _ _ => rp_form _ _
  | koreanReadingForm => cases h; exact rp_rewrite _ _ fun _ _ => rp_form _ _
  | japaneseKana kind => cases h; exact rp_rewrite _ _ fun _ _ => by cases kind <;> exact rp_ok _
  | lowercase => cases h; exact rp_rewrite _ _ fun _ _ => rp_ok _
  | uppercase => cases h; exact rp_rewrite _ _ fun _ _ => rp_ok _
  | keepWords => cases h; exact rp_retain _ _ fun _ _ => rp_ok _
  | stopWords => cases h; exact rp_retain _ _ fun _ _ => rp_ok _
  | length => cases h; exact rp_retain _ _ fun _ _ => rp_ok _
  | koreanKeepTags => cases h; exact rp_retain _ _ fun _ _ => rp_bind (rp_orPanic _) fun _ _ => rp_ok _
  | koreanStopTags => cases h; exact rp_retain _ _ fun _ _ => rp_bind (rp_orPanic _) fun _ _ => rp_ok _
  | japaneseKatakanaStem min =>
    cases h
    refine rp_rewrite _ _ fun _ _ => rp_bind (rp_isKatakana _ _) fun _ _ => ?_
    split
    · exact rp_ok _
    · split
      · exact rp_orPanic _
      · exact rp_ok _
  | japaneseCompoundWord kind tags newTag =>
    simp only [TokenFilterSetting.new, bind_eq_ok, pure_eq_ok] at h
    obtain ⟨g, -, h⟩ := h
    cases h
    exact rp_compound g ts
  | japaneseKeepTags tags =>
    simp only [TokenFilterSetting.new, bind_eq_ok, pure_eq_ok] at h
    obtain ⟨g, -, h⟩ := h
    cases h
    exact rp_retain _ _ fun _ _ => rp_bind (rp_tag _) fun _ _ => rp_ok _
  | japaneseStopTags tags =>
    simp only [TokenFilterSetting.new, bind_eq_ok, pure_eq_ok] at h
    obtain ⟨g, -, h⟩ := h
    cases h
    exact rp_retain _ _ fun _ _ => rp_bind (rp_tag _) fun _ _ => rp_ok _
  | japaneseNumber tags =>
    simp only [TokenFilterSetting.new, bind_eq_ok, pure_eq_ok] at h
    obtain ⟨g, -, h⟩ := h
    cases h
    refine rp_rewrite _ _ fun _ _ => rp_bind (rp_tag _) fun _ _ => ?_
    split
    · split
      · exact rp_numerals _ _ _
      · exact rp_ok _
    · exact rp_numerals _ _ _
  | mapping m =>
    simp only [TokenFilterSetting.new, bind_eq_ok, pure_eq_ok] at h
    obtain ⟨g, -, h⟩ := h
    cases h
    exact rp_rewrite _ _ fun t _ => rp_tokenLoop g t.text _ _ _ (Nat.zero_le _) (by omega)

/-! ### Analysis and loading -/

theorem ends_ok {α : Type} (a : α) : Ends (.ok a : R α) := by simp [Ends]

theorem ends_err {α : Type} (k : ErrKind) : Ends (.error (.err k) : R α) := by simp [Ends]

theorem _root_.Verif.Spec.ReturnsOrPanics.ends {α : Type} {r : R α} (h : ReturnsOrPanics r) : Ends r := by
  rcases h with ⟨a, rfl⟩ | rfl <;> simp [Ends]

theorem _root_.Verif.Spec.Reported.ends {α : Type} {r : R α} (h : Reported r) : Ends r := by
  rcases h with ⟨a, rfl⟩ | ⟨k, rfl⟩ <;> simp [Ends]

theorem ends_bind {α β : Type} {m : R α} {k : α → R β} (h : Ends m) (hk : ∀ a, m = .ok a → Ends (k a)) : Ends (m >>= k) := by
  cases hm : m with
  | ok a => rw [bind_ok]; exact hk a hm
  | error e =>
    rw [bind_error]
    intro he
    rw [hm] at h
    cases he
    exact h rfl

theorem ends_mapM {α β : Type} {f : α → R β} (xs : List α) (h : ∀ x ∈ xs, Ends (f x)) : Ends (xs.mapM f) := by
  induction xs with
  | nil => exact ends_ok _
  | cons x xs ih =>
    rw [List.mapM_cons]
    refine ends_bind (h x (by simp)) fun b _ => ends_bind (ih fun y hy => h y (by simp [hy])) fun bs _ => ends_ok _

theorem ends_foldlM {α σ : Type} {f : σ → α → R σ} (xs : List α) : ∀ (s : σ), (∀ x ∈ xs, ∀ s, Ends (f s x)) → Ends (xs.foldlM f s) := by
  induction xs with
  | nil => intro s _; exact ends_ok _
  | cons x xs ih =>
    intro s h
    rw [List.foldlM_cons]
    exact ends_bind (h x (by simp) s) fun s' _ => ih s' fun y hy => h y (by simp [hy])

theorem ends_mapErr {α : Type} {k : ErrKind} {r : R α} (h : Ends r) : Ends (mapErr k r) := by
  match r with
  | .ok a => exact ends_ok a
  | .error (.err _) => exact ends_err k
  | .error .panic => exact rp_panic.ends
  | .error .diverge => exact absurd rfl h

theorem rp_details (d : Dictionary) (u : Option UserDictionary) (t : Token) : ReturnsOrPanics (t.getDetails d u) := by
  unfold Token.getDetails
  split
  · exact rp_ok _
  · split
    · exact rp_ok _
    · refine rp_bind ?_ fun _ _ => rp_ok _
      unfold Token.lookupDetails
      split
      · unfold Dictionary.wordDetails wordDetails
        split
        · exact rp_ok _
        · exact rp_bind (rp_orPanic _) fun _ _ => rp_bind (rp_orPanic _) fun _ _ => rp_bind (rp_orPanic _) fun _ _ => rp_bind (rp_orPanic _) fun _ _ => rp_bind (rp_orPanic _) fun _ _ => rp_ok _
      · split
        · unfold UserDictionary.wordDetails
          split
          · exact rp_ok _
          · exact rp_bind (rp_orPanic _) fun _ _ => rp_bind (rp_orPanic _) fun _ _ => rp_bind (rp_orPanic _) fun _ _ => rp_ok _
        · exact rp_ok _

/-- Nothing but a missing entry of details is reported as an error by an analysis. -/
theorem analyze_outcomes {a : Analyzer} (hc : ∀ f ∈ a.characterFilters, ∀ s, ReturnsOrPanics (f s)) (ht : ∀ f ∈ a.tokenFilters, ∀ ts, ReturnsOrPanics (f ts)) (text : Str) :
    ReturnsOrPanics (a.analyze text) ∨ a.analyze text = .error (.err .content) := by
  have hbind : ∀ {α β : Type} {m : R α} {k : α → R β}, (ReturnsOrPanics m ∨ m = .error (.err .content)) →
      (∀ x, m = .ok x → ReturnsOrPanics (k x) ∨ k x = .error (.err .content)) → ReturnsOrPanics (m >>= k) ∨ (m >>= k) = .error (.err .content) := by
    intro α β m k h hk
    rcases h with (⟨x, h⟩ | h) | h
    · rw [h, bind_ok]; exact hk x h
    · rw [h, bind_error]; exact .inl rp_panic
    · rw [h, bind_error]; exact .inr rfl
  have hmap : ∀ {α β : Type} {f : α → R β} (xs : List α), (∀ x ∈ xs, ReturnsOrPanics (f x) ∨ f x = .error (.err .content)) →
      ReturnsOrPanics (xs.mapM f) ∨ xs.mapM f = .error (.err .content) := by
    intro α β f xs h
    induction xs with
    | nil => exact .inl (rp_ok _)
    | cons x xs ih =>
      rw [List.mapM_cons]
      exact hbind (h x (by simp)) fun b _ => hbind (ih fun y hy => h y (by simp [hy])) fun bs _ => .inl (rp_ok _)
  unfold Analyzer.analyze
  refine hbind (.inl (rp_foldlM _ _ fun f hf st => rp_bind (hc f hf _) fun _ _ => rp_ok _)) fun st _ => hbind ?_ fun toks _ => .inl (rp_mapM _ fun t _ => rp_foldlM _ _ fun tb _ t => ?_)
  · unfold Analyzer.tokens
    refine hbind (.inl (rp_tokenize _ _)) fun tmp _ => hbind (hmap _ fun t _ => ?_) fun ts _ => .inl (rp_foldlM _ _ fun f hf ts => ht f hf ts)
    unfold Token.analyzed
    refine hbind (.inl (rp_details _ _ _)) fun d _ => ?_
    obtain ⟨d, _⟩ := d
    cases d with
    | none => exact .inr rfl
    | some d => exact .inl (rp_ok _)
  · unfold FToken.correctBy
    exact rp_bind (rp_correct _ _ _) fun _ _ => rp_bind (rp_correct _ _ _) fun _ _ => rp_ok _

theorem ends_dictionary (env : LoadEnv) (dir : Path) : Ends (env.loadDictionary dir) := by
  unfold LoadEnv.loadDictionary
  refine ends_bind ?_ fun _ _ => ends_bind ?_ fun _ _ => ends_bind ?_ fun _ _ => ends_bind ?_ fun _ _ => ends_bind (reported_readFile _ _).ends fun _ _ =>
    ends_bind (reported_readFile _ _).ends fun _ _ => ends_ok _
  · exact ends_bind (reported_readFile _ _).ends fun _ _ => ends_bind (reported_readFile _ _).ends fun _ _ => ends_ok _
  · refine ends_bind (reported_readFile _ _).ends fun data _ => ReturnsOrPanics.ends ?_
    unfold ConnMatrix.load
    exact rp_bind (rp_orPanic _) fun _ _ => rp_bind (rp_orPanic _) fun _ _ => rp_bind (rp_orPanic _) fun _ _ => rp_ok _
  · exact ends_bind (reported_readFile _ _).ends fun _ _ => (reported_codec _ _).ends
  · exact ends_bind (reported_readFile _ _).ends fun _ _ => (reported_codec _ _).ends

theorem ends_fromConfig {env : LoadEnv} (hb : ∀ kind, Ends (env.builtin kind)) (c : DictionaryConfig) : Ends (env.loadFromConfig c) := by
  unfold LoadEnv.loadFromConfig LoadEnv.loadFromKind
  split
  · split
    · exact ends_mapErr (hb _)
    · exact ends_err _
  · split
    · exact ends_dictionary _ _
    · exact ends_err _

theorem ends_buildUserDict (yada : DaBuilder) (kind : DictionaryKind) (rows : List Row) : Ends (buildUserDict yada (UserCfg.ofKind kind) rows) := by
  unfold buildUserDict
  refine ends_bind ?_ fun rows' _ => ends_bind ?_ fun m _ => ends_bind ?_ fun x _ => ?_
  · unfold UserCfg.readRows
    split
    · exact ends_ok _
    · split
      · exact ends_ok _
      · exact ends_err _
  · unfold UserCfg.entryMap
    refine ends_foldlM _ _ fun x _ s => ends_bind ?_ fun n _ => ends_ok _
    unfold UserCfg.numbers
    split
    · exact ends_ok _
    · exact ends_bind (rp_orPanic _).ends fun _ _ => ends_bind (reported_orParse _).ends fun _ _ => ends_bind (rp_orPanic _).ends fun _ _ => ends_bind (reported_orParse _).ends fun _ _ =>
        ends_bind (rp_orPanic _).ends fun _ _ => ends_bind (reported_orParse _).ends fun _ _ => ends_ok _
  · refine ends_foldlM _ _ fun row _ s => ends_bind ?_ fun _ _ => ends_ok _
    unfold UserCfg.rowDetails
    split
    · show Ends (kind.handler row)
      unfold DictionaryKind.handler simpleColumns
      refine ends_bind (ends_bind (rp_orPanic _).ends fun _ _ => ends_bind (rp_orPanic _).ends fun _ _ => ends_ok _) fun x _ => ?_
      obtain ⟨_, _, _⟩ := x
      exact ends_ok _
    · split
      · exact ends_ok _
      · exact ends_err _
  · obtain ⟨words, idx⟩ := x
    dsimp only
    split
    · exact ends_err _
    · exact ends_ok _

theorem ends_loadUser (env : LoadEnv) (c : Option UserDictionaryConfig) : Ends (env.loadUser c) := by
  unfold LoadEnv.loadUser
  split
  · refine ends_bind ?_ fun _ _ => ends_ok _
    unfold LoadEnv.loadUserFromConfig
    split
    · split
      · split
        · refine ends_mapErr (ends_bind (reported_readFile _ _).ends fun data _ => ?_)
          split
          · exact ends_buildUserDict _ _ _
          · exact ends_err _
        · exact ends_err _
      · split
        · exact ends_bind (reported_readFile _ _).ends fun _ _ => ends_bind (reported_codec _ _).ends fun _ _ => ends_ok _
        · exact ends_err _
    · exact ends_err _
  · exact ends_ok _

theorem rp_formatTag (tag : Str) : ReturnsOrPanics (formatTag tag) := rp_bind (rp_overwrite _ _ _) fun _ _ => rp_ok _

theorem rp_formatTags (tags : List Str) : ReturnsOrPanics (formatTags tags) := rp_mapM _ fun _ _ => rp_formatTag _

theorem ends_tokenSetting (env : FilterEnv) (s : TokenFilterSetting) : Ends (s.new env) := by
  cases s with
  | japaneseCompoundWord kind tags newTag =>
    refine ends_bind (ReturnsOrPanics.ends ?_) fun _ _ => ends_ok _
    refine rp_bind (rp_formatTags _) fun _ _ => rp_bind ?_ fun _ _ => rp_ok _
    cases newTag with
    | none => exact rp_ok _
    | some tag => exact rp_bind (rp_formatTag _) fun _ _ => rp_ok _
  | japaneseKeepTags tags => exact ends_bind (rp_formatTags _).ends fun _ _ => ends_ok _
  | japaneseStopTags tags => exact ends_bind (rp_formatTags _).ends fun _ _ => ends_ok _
  | japaneseNumber tags =>
    refine ends_bind (ReturnsOrPanics.ends ?_) fun _ _ => ends_ok _
    cases tags with
    | none => exact rp_ok _
    | some tags => exact rp_bind (rp_formatTags _) fun _ _ => rp_ok _
  | mapping m => exact ends_bind (reported_mapping _ _).ends fun _ _ => ends_ok _
  | _ => exact ends_ok _

theorem ends_tokenFilter (env : FilterEnv) (kind : Str) (args : Json) : Ends (env.tokenFilter kind args) := by
  unfold FilterEnv.tokenFilter
  split
  · exact ends_tokenSetting _ _
  · exact ends_err _

theorem charFilter_rp {env : FilterEnv} {kind : Str} {args : Json} {f : CharFilter} (h : env.charFilter kind args = .ok f) (s : Str) : ReturnsOrPanics (f s) := by
  unfold FilterEnv.charFilter at h
  split at h
  · exact rp_charFilter h s
  · cases h

theorem tokenFilter_rp {env : FilterEnv} {kind : Str} {args : Json} {f : TokenFilter} (h : env.tokenFilter kind args = .ok f) (ts : List FToken) : ReturnsOrPanics (f ts) := by
  unfold FilterEnv.tokenFilter at h
  split at h
  · exact rp_tokenFilter h ts
  · cases h

theorem loadEntries_all {α : Type} {P : α → Prop} {loader : Str → Json → R α} (hl : ∀ kind args f, loader kind args = .ok f → P f) {settings : Json} {fs : List α}
    (h : loadEntries loader settings = .ok fs) : ∀ f ∈ fs, P f := by
  obtain ⟨es, hes⟩ : ∃ es, settings.asArray = some es ∨ settings.asArray = none := by
    cases settings.asArray with
    | none => exact ⟨[], .inr rfl⟩
    | some es => exact ⟨es, .inl rfl⟩
  unfold loadEntries at h
  rcases hes with hes | hes <;> rw [hes] at h
  · dsimp only at h
    refine foldlM_inv (fun _ acc => ∀ f ∈ acc, P f) (fun x _ acc acc' ha hs => ?_) _ _ _ (by simp) h
    unfold loadEntry at hs
    split at hs
    · simp only [bind_eq_ok, pure_eq_ok] at hs
      obtain ⟨f, hf, hs⟩ := hs
      cases hs
      intro g hg
      rcases List.mem_append.mp hg with hg | hg
      · exact ha g hg
      · rw [List.mem_singleton.mp hg]; exact hl _ _ _ hf
    · cases hs; exact ha
  · cases h; simp

theorem ends_loadEntries {α : Type} {loader : Str → Json → R α} (hl : ∀ kind args, Ends (loader kind args)) (settings : Json) : Ends (loadEntries loader settings) := by
  unfold loadEntries
  split
  · refine ends_foldlM _ _ fun e _ acc => ?_
    unfold loadEntry
    split
    · exact ends_bind (hl _ _) fun _ _ => ends_ok _
    · exact ends_ok _
  · exact ends_ok _

theorem mapM_mem_source {α β : Type} {f : α → R β} {xs : List α} {ys : List β} (h : xs.mapM f = .ok ys) {y : β} (hy : y ∈ ys) : ∃ x ∈ xs, f x = .ok y := by
  replace h := mapM_ok_iff.mp h
  induction h with
  | nil => cases hy
  | @cons x z xs ys hx _ ih =>
    rcases List.mem_cons.mp hy with rfl | hy
    · exact ⟨x, by simp, hx⟩
    · obtain ⟨x', hm, h⟩ := ih hy
      exact ⟨x', by simp [hm], h⟩

end Verif.Model
