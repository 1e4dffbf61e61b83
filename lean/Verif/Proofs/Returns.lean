import Verif.Spec.Returns
import Verif.Proofs.Exact
import Verif.Props.Exact
import Verif.Props.NumberLimits
import Verif.Props.EndToEnd
/-! When analysis returns. -/
namespace Verif.Model
open Verif.Spec Verif.Props

theorem form_returns (column : Option Nat) (t : FToken) :
    ReturnsIff (formText column t) (t.details ≠ [] ∧ ∀ i, column = some i → t.details.head? = some "UNK".toList ∨ i < t.details.length) := by
  unfold formText
  rw [← List.head?_eq_getElem?]
  cases hd : t.details.head? with
  | none =>
    have : t.details = [] := by simpa using hd
    exact .inr ⟨by simp [this], rfl⟩
  | some x =>
    have hne : t.details ≠ [] := by intro h; rw [h] at hd; cases hd
    rw [orPanic_some, bind_ok]
    by_cases hx : x = "UNK".toList
    · rw [if_pos hx]
      exact .ok ⟨hne, fun i _ => .inl (by rw [hx])⟩
    · rw [if_neg hx]
      cases column with
      | none => exact .ok ⟨hne, fun i h => by cases h⟩
      | some i =>
        dsimp only
        refine (orPanic_returns _).congr ?_
        rw [ne_eq, List.getElem?_eq_none_iff, not_le]
        constructor
        · exact fun h => ⟨hne, fun j hj => by cases hj; exact .inr h⟩
        · intro h
          rcases h.2 i rfl with h | h
          · exact absurd (Option.some.inj h) hx
          · exact h

theorem baseFormColumn_iff {features : Features} {kind : DictionaryKind} {i : Nat} : baseFormColumn features kind = some i ↔ baseColumn features kind i := by
  unfold baseFormColumn baseColumn
  cases kind <;> simp <;> exact fun _ => eq_comm

theorem readingFormColumn_iff {features : Features} {kind : DictionaryKind} {i : Nat} : readingFormColumn features kind = some i ↔ readingColumn features kind i := by
  unfold readingFormColumn readingColumn
  cases kind <;> simp <;> exact fun _ => eq_comm

theorem number_returns {tags : Option (List Str)} {ft : Option (List Str)} (hf : formatNumberTags tags = .ok ft) (tokens : List FToken) :
    ReturnsIff (japaneseNumber ft tokens) (∀ t ∈ tokens, t.details ≠ [] ∧ ((∀ ts, tags = some ts → HasTag ts t) → UnitsFit t.text)) := by
  obtain ⟨h1, h2⟩ := c44_filter_exact ft tokens
  have h3 : ReturnsIff (japaneseNumber ft tokens) (∀ t ∈ tokens, t.details ≠ [] ∧ ((∀ ts, ft = some ts → [','].intercalate (partOfSpeech t) ∈ ts) → UnitsFit t.text)) := by
    rcases h2 with h2 | h2
    · exact .inl ⟨h1.mp h2, h2⟩
    · refine .inr ⟨fun h => ?_, h2⟩
      obtain ⟨out, ho⟩ := h1.mpr h
      rw [h2] at ho
      cases ho
  refine h3.congr (forall₂_congr fun t _ => and_congr_right fun hd => imp_congr_left ?_)
  cases tags with
  | none => cases hf; simp
  | some ts =>
    unfold formatNumberTags at hf
    rw [bind_eq_ok] at hf
    obtain ⟨fs, hfs, hf⟩ := hf
    cases hf
    have hts : ∀ tag ∈ ts, tag.count ',' ≤ 3 := by
      rcases c40_new_exact ts with h | ⟨-, h⟩
      · exact h.1
      · rw [hfs] at h; cases h
    obtain ⟨fs', h1, h2⟩ := formatTags_ok hts
    rw [hfs] at h1
    cases h1
    have := h2 t hd
    rw [List.contains_iff_mem, joinComma_eq] at this
    simpa using this

theorem setting_returns {env : FilterEnv} (hy : YadaContract env.yada) (hb : KatakanaBlock env.block) {s : TokenFilterSetting} {f : TokenFilter} (hf : s.new env = .ok f)
    (hm : ∀ m, s = .mapping m → MappingOk m) (tokens : List FToken) : ReturnsIff (f tokens) (∀ t ∈ tokens, Handles env s t) := by
  have always : ∀ {x : R (List FToken)} {s : TokenFilterSetting}, ReturnsIff x (∀ t ∈ tokens, True) → (∀ t, Handles env s t) → ReturnsIff x (∀ t ∈ tokens, Handles env s t) :=
    fun h hs => h.congr ⟨fun _ t _ => hs t, fun _ _ _ => trivial⟩
  have looks : ∀ {x : R (List FToken)} {s : TokenFilterSetting}, ReturnsIff x (∀ t ∈ tokens, t.details ≠ []) → (∀ t, Handles env s t ↔ t.details ≠ []) →
      ReturnsIff x (∀ t ∈ tokens, Handles env s t) :=
    fun h hs => h.congr (forall₂_congr fun t _ => (hs t).symm)
  have looked : ∀ {s : TokenFilterSetting}, LooksAtDetails s → (∀ i, ¬ Reads env s i) → (∀ min, s ≠ .japaneseKatakanaStem min) → (∀ tags, s ≠ .japaneseNumber tags) →
      ∀ t, Handles env s t ↔ t.details ≠ [] :=
    fun h1 h2 h3 h4 t => ⟨fun h => h.details h1, fun h => ⟨fun _ => h, fun i hi => absurd hi (h2 i), fun m e => absurd e (h3 m), fun ts e => absurd e (h4 ts)⟩⟩
  have formed : ∀ {s : TokenFilterSetting} {column : Option Nat}, LooksAtDetails s → (∀ i, column = some i ↔ Reads env s i) → (∀ min, s ≠ .japaneseKatakanaStem min) →
      (∀ tags, s ≠ .japaneseNumber tags) → ReturnsIff (rewriteText (formText column) tokens) (∀ t ∈ tokens, Handles env s t) :=
    fun h1 h2 h3 h4 => (ReturnsIff.rewriteText fun t _ => form_returns _ t).congr (forall₂_congr fun t _ =>
      ⟨fun h => ⟨fun _ => h.1, fun i hi => h.2 i ((h2 i).mpr hi), fun m e => absurd e (h3 m), fun ts e => absurd e (h4 ts)⟩,
        fun h => ⟨h.details h1, fun i hi => h.column i ((h2 i).mp hi)⟩⟩)
  cases s with
  | japaneseBaseForm kind => cases hf; exact formed trivial (fun i => baseFormColumn_iff) (by simp) (by simp)
  | japaneseReadingForm kind => cases hf; exact formed trivial (fun i => readingFormColumn_iff) (by simp) (by simp)
  | koreanReadingForm => cases hf; exact formed trivial (fun i => by simp [Reads, eq_comm]) (by simp) (by simp)
  | japaneseCompoundWord kind tags newTag =>
    unfold TokenFilterSetting.new at hf
    rw [bind_eq_ok] at hf
    obtain ⟨g, hg, hf⟩ := hf
    cases hf
    exact looks (c42_apply_exact _ _ _ _ g hg tokens) (looked trivial (by simp [Reads]) (by simp) (by simp))
  | japaneseKeepTags tags =>
    unfold TokenFilterSetting.new at hf
    rw [bind_eq_ok] at hf
    obtain ⟨g, -, hf⟩ := hf
    cases hf
    exact looks (c40_apply_exact g tokens).1 (looked trivial (by simp [Reads]) (by simp) (by simp))
  | japaneseStopTags tags =>
    unfold TokenFilterSetting.new at hf
    rw [bind_eq_ok] at hf
    obtain ⟨g, -, hf⟩ := hf
    cases hf
    exact looks (c40_apply_exact g tokens).2.1 (looked trivial (by simp [Reads]) (by simp) (by simp))
  | koreanKeepTags tags => cases hf; exact looks (c40_apply_exact tags tokens).2.2.1 (looked trivial (by simp [Reads]) (by simp) (by simp))
  | koreanStopTags tags => cases hf; exact looks (c40_apply_exact tags tokens).2.2.2 (looked trivial (by simp [Reads]) (by simp) (by simp))
  | japaneseNumber tags =>
    unfold TokenFilterSetting.new at hf
    rw [bind_eq_ok] at hf
    obtain ⟨g, hg, hf⟩ := hf
    cases hf
    exact (number_returns hg tokens).congr (forall₂_congr fun t _ =>
      ⟨fun h => ⟨fun _ => h.1, by simp [Reads], by simp, fun ts e => by cases e; exact h.2⟩, fun h => ⟨h.details trivial, h.numbers tags rfl⟩⟩)
  | japaneseKatakanaStem min =>
    cases hf
    refine (c46_exact env.block min tokens).congr (forall₂_congr fun t _ => ⟨fun h => ⟨fun e => e.elim, by simp [Reads], fun m _ p c q e hp => ?_, by simp⟩, fun h p c q e hp => ?_⟩)
    · exact h p c q e fun d hd => (hb d).mpr (hp d hd)
    · exact h.blocks min rfl p c q e fun d hd => (hb d).mp (hp d hd)
  | mapping m =>
    unfold TokenFilterSetting.new at hf
    rw [bind_eq_ok] at hf
    obtain ⟨g, hg, hf⟩ := hf
    cases hf
    obtain ⟨g', hg', h⟩ := c56_mapping_tokens hy (hm m rfl)
    rw [hg] at hg'
    cases hg'
    obtain ⟨out, ho, -⟩ := h tokens
    rw [ho]
    exact .ok fun t _ => ⟨fun e => e.elim, by simp [Reads], by simp, by simp⟩
  | japaneseKana kind => cases hf; exact always (.rewriteText fun t _ => by cases kind <;> exact .ok trivial) fun t => ⟨fun e => e.elim, by simp [Reads], by simp, by simp⟩
  | lowercase => cases hf; exact always (.rewriteText fun t _ => .ok trivial) fun t => ⟨fun e => e.elim, by simp [Reads], by simp, by simp⟩
  | uppercase => cases hf; exact always (.rewriteText fun t _ => .ok trivial) fun t => ⟨fun e => e.elim, by simp [Reads], by simp, by simp⟩
  | keepWords _ => cases hf; exact always (.retain fun t _ => .ok trivial) fun t => ⟨fun e => e.elim, by simp [Reads], by simp, by simp⟩
  | stopWords _ => cases hf; exact always (.retain fun t _ => .ok trivial) fun t => ⟨fun e => e.elim, by simp [Reads], by simp, by simp⟩
  | length _ _ => cases hf; exact always (.retain fun t _ => .ok trivial) fun t => ⟨fun e => e.elim, by simp [Reads], by simp, by simp⟩

/-! ### Offset tables -/

/-- Every offset has its difference. -/
def OffsetTable.Balanced (t : OffsetTable) : Prop := t.offsets.length = t.diffs.length

theorem OffsetTable.Balanced.add {t : OffsetTable} (h : t.Balanced) (o : Nat) (d : Int) : (t.add o d).Balanced := by
  unfold OffsetTable.add
  unfold OffsetTable.Balanced at *
  split
  · rename_i last hl
    have hpos : 0 < t.offsets.length := by
      cases ho : t.offsets with
      | nil => rw [ho] at hl; cases hl
      | cons a as => simp
    split
    · simp only [List.length_append, List.length_dropLast, List.length_singleton]; omega
    · simp only [List.length_append, List.length_singleton]; omega
  · simp only [List.length_append, List.length_singleton]; omega

theorem OffsetTable.Balanced.record {t : OffsetTable} (h : t.Balanced) (a b c : Nat) : (t.record a b c).Balanced := by
  unfold OffsetTable.record
  have fold : ∀ (es : List Nat) (o : Nat) (p : Int) (t : OffsetTable), t.Balanced → (es.foldl (init := t) fun t e => t.add (o + e) (p - (e : Int) - 1)).Balanced := by
    intro es o p
    induction es with
    | nil => exact fun t h => h
    | cons e es ih => exact fun t h => ih _ (h.add _ _)
  dsimp only
  split
  · split
    · exact h.add _ _
    · exact fold _ _ _ _ h
  · exact h

theorem OffsetTable.Balanced.correct {t : OffsetTable} (h : t.Balanced) (o n : Nat) : ∃ r, t.correct o n = .ok r := by
  unfold OffsetTable.correct
  split
  · exact ⟨_, rfl⟩
  · rename_i hne
    have hpos : 0 < t.offsets.length := by
      cases ho : t.offsets with
      | nil => rw [ho] at hne; exact absurd rfl hne
      | cons a as => simp
    unfold OffsetTable.Balanced at h
    have get : ∀ i, i < t.offsets.length → ∃ r, (do let d ← orPanic t.diffs[i]?; return asUsize ((o : Int) + d) : R Nat) = .ok r := by
      intro i hi
      rw [List.getElem?_eq_getElem (by omega)]
      exact ⟨_, rfl⟩
    have hle : (t.offsets.takeWhile (· < o)).length ≤ t.offsets.length := (List.takeWhile_prefix _).length_le
    unfold OffsetTable.index binarySearch
    dsimp only
    split
    · exact ⟨_, rfl⟩
    · rename_i j i hi
      apply get
      split at hi
      · rename_i k hk
        split at hk
        · rename_i he
          have := (List.getElem?_eq_some_iff.mp he).1
          cases hk
          cases hi
          omega
        · cases hk
      · rename_i k hk
        split at hk
        · cases hk
        · cases hk
          split at hi
          · cases hi; omega
          · rename_i h0
            split at hi
            · cases hi
              omega
            · cases hi

theorem charFilter_returns {env : FilterEnv} (hy : YadaContract env.yada) (hr : RegexContract env.regex) {s : CharFilterSetting} {f : CharFilter} (hf : s.new env = .ok f)
    (hm : ∀ m, s = .mapping m → MappingOk m) (text : Str) : ∃ out t, f text = .ok (out, t) ∧ t.Balanced := by
  cases s with
  | iterationMark a b => cases hf; exact ⟨_, _, rfl, rfl⟩
  | mapping m =>
    unfold CharFilterSetting.new at hf
    rw [bind_eq_ok] at hf
    obtain ⟨g, hg, hf⟩ := hf
    cases hf
    rw [Mapping.new_ok hy (hm m rfl)] at hg
    cases hg
    obtain ⟨ps, t, h1, h2, h3, h4, h5⟩ := Mapping.apply_spec (hm m rfl) text
    exact ⟨_, t, h1, h3.wf.len⟩
  | unicodeNormalize kind =>
    cases hf
    have : ∀ (gs : List Str) (st : Str × Nat × OffsetTable), st.2.2.Balanced → (gs.foldl (UnicodeNormalize.step ⟨env.graphemes, env.normalForm kind⟩) st).2.2.Balanced := by
      intro gs
      induction gs with
      | nil => exact fun _ h => h
      | cons g gs ih => exact fun st h => ih _ (h.record _ _ _)
    exact ⟨_, _, rfl, this _ _ (show OffsetTable.empty.Balanced from rfl)⟩
  | regex pattern replacement =>
    simp only [CharFilterSetting.new] at hf
    split at hf
    · rename_i find hfind
      cases hf
      obtain ⟨ps, hps⟩ := hr pattern find hfind text
      have hstep : ∀ {o ms s ps}, Matches (fun _ => []) o ms s ps → ∀ pre, blen pre = o → text = pre ++ s →
          ∀ m ∈ ms, ∃ inp, sliceBytes text m.start m.stop = some inp := by
        intro o ms s ps h
        induction h with
        | done => simp
        | hit o m ms gap mt r ps h1 h2 _ ih =>
          intro pre hpre htext m' hm'
          rcases List.mem_cons.mp hm' with rfl | hm'
          · refine ⟨mt, ?_⟩
            rw [h2, h1, ← hpre, ← blen_append, htext, show pre ++ (gap ++ mt ++ r) = (pre ++ gap) ++ mt ++ r by simp]
            exact sliceBytes_append _ _ _
          · exact ih (pre ++ gap ++ mt) (by rw [blen_append, blen_append]; omega) (by rw [htext]; simp) m' hm'
      have hfold : ∀ (ms : List RegexMatch) (t : OffsetTable), t.Balanced → (∀ m ∈ ms, ∃ inp, sliceBytes text m.start m.stop = some inp) →
          ∃ t', ms.foldlM (RegexFilter.step ⟨find, replacement⟩ text) t = .ok t' ∧ t'.Balanced := by
        intro ms
        induction ms with
        | nil => exact fun t h _ => ⟨t, rfl, h⟩
        | cons m ms ih =>
          intro t h hall
          obtain ⟨inp, hi⟩ := hall m (by simp)
          rw [List.foldlM_cons]
          unfold RegexFilter.step
          rw [hi, orPanic_some, bind_ok, pure_eq_ok, bind_ok]
          exact ih _ (h.record _ _ _) fun m' h' => hall m' (by simp [h'])
      obtain ⟨t, ht, hb⟩ := hfold (find text) .empty rfl (hstep hps [] rfl rfl)
      obtain ⟨ps', hps'⟩ := Matches.other hps (dst' := fun m => expandRefs m.group replacement.length replacement)
      have h3 := RegexFilter.replaceFrom_spec ⟨find, replacement⟩ text hps' (fun m _ => expandRefs_expands m.group _ replacement (Nat.le_refl _)) [] (by simp) rfl
      refine ⟨target ps', t, ?_, hb⟩
      show RegexFilter.apply ⟨find, replacement⟩ text = _
      unfold RegexFilter.apply
      rw [show List.foldlM _ OffsetTable.empty (RegexFilter.findIter ⟨find, replacement⟩ text) = _ from ht, bind_ok, show RegexFilter.replaceFrom _ text 0 (RegexFilter.findIter ⟨find, replacement⟩ text) = _ from h3]
      rfl
    · cases hf

theorem charFilters_return {env : FilterEnv} (hy : YadaContract env.yada) (hr : RegexContract env.regex) {ss : List CharFilterSetting} {fs : List CharFilter}
    (h : List.Forall₂ (fun s f => s.new env = .ok f) ss fs) (hm : ∀ m, .mapping m ∈ ss → MappingOk m) :
    ∀ st : Filtering, (∀ t ∈ st.tables, t.1.Balanced) → ∃ st', fs.foldlM Filtering.step st = .ok st' ∧ ∀ t ∈ st'.tables, t.1.Balanced := by
  induction h with
  | nil => exact fun st h => ⟨st, rfl, h⟩
  | @cons s f ss fs h1 _ ih =>
    intro st hst
    obtain ⟨out, t, hf, hb⟩ := charFilter_returns hy hr h1 (fun m e => hm m (by simp [e])) st.text
    rw [List.foldlM_cons]
    unfold Filtering.step
    rw [hf, bind_ok]
    simp only [pure_eq_ok, bind_ok]
    refine ih (fun m e => hm m (by simp [e])) _ ?_
    dsimp only
    split
    · exact hst
    · intro t' ht'
      rcases List.mem_cons.mp ht' with rfl | ht'
      · exact hb
      · exact hst t' ht'

theorem corrections_return {tables : List (OffsetTable × Nat)} (h : ∀ t ∈ tables, t.1.Balanced) (tok : FToken) :
    ∃ tok', tables.foldlM FToken.correctBy tok = .ok tok' ∧ tok'.text = tok.text ∧ tok'.details = tok.details := by
  induction tables generalizing tok with
  | nil => exact ⟨tok, rfl, rfl, rfl⟩
  | cons t ts ih =>
    obtain ⟨s, hs⟩ := (h t (by simp)).correct tok.byteStart t.2
    obtain ⟨e, he⟩ := (h t (by simp)).correct tok.byteEnd t.2
    rw [List.foldlM_cons]
    unfold FToken.correctBy
    rw [hs, bind_ok, he, bind_ok, pure_eq_ok, bind_ok]
    obtain ⟨tok', h1, h2, h3⟩ := ih (fun t' h' => h t' (by simp [h'])) { tok with byteStart := s, byteEnd := e }
    exact ⟨tok', h1, h2, h3⟩

theorem corrected_return {tables : List (OffsetTable × Nat)} (h : ∀ t ∈ tables, t.1.Balanced) (toks : List FToken) :
    ∃ out, (toks.mapM fun t => tables.foldlM FToken.correctBy t) = .ok out ∧ List.Forall₂ (fun t t' => t'.text = t.text ∧ t'.details = t.details) toks out := by
  induction toks with
  | nil => exact ⟨[], rfl, .nil⟩
  | cons t ts ih =>
    obtain ⟨t', h1, h2⟩ := corrections_return h t
    obtain ⟨out, h3, h4⟩ := ih
    rw [List.mapM_cons, h1, bind_ok, h3]
    exact ⟨_, rfl, .cons h2 h4⟩

theorem _root_.Verif.Spec.Handles.congr {env : FilterEnv} {s : TokenFilterSetting} {t t' : FToken} (h : t'.text = t.text ∧ t'.details = t.details) : Handles env s t' ↔ Handles env s t := by
  have key : ∀ t t' : FToken, t'.text = t.text ∧ t'.details = t.details → Handles env s t → Handles env s t' := by
    rintro t t' ⟨ht, hd⟩ hh
    refine ⟨by rw [hd]; exact hh.details, by rw [hd]; exact hh.column, by rw [ht]; exact hh.blocks, fun tags e h => ?_⟩
    rw [ht]
    refine hh.numbers tags e fun ts hts => ?_
    have := h ts hts
    unfold HasTag partOfSpeech at *
    rwa [hd] at this
  exact ⟨key _ _ ⟨h.1.symm, h.2.symm⟩, key _ _ h⟩

theorem filters_return {env : FilterEnv} (hy : YadaContract env.yada) (hb : KatakanaBlock env.block) {ss : List TokenFilterSetting} {fs : List TokenFilter}
    (h : List.Forall₂ (fun s f => s.new env = .ok f) ss fs) (hm : ∀ m, .mapping m ∈ ss → MappingOk m) :
    ∀ tokens, ReturnsIff (fs.foldlM (fun ts f => f ts) tokens)
      (∀ i s, ss[i]? = some s → ∀ mid, (fs.take i).foldlM (fun ts f => f ts) tokens = .ok mid → ∀ t ∈ mid, Handles env s t) := by
  induction h with
  | nil => exact fun tokens => .ok (by simp)
  | @cons s f ss fs h1 _ ih =>
    intro tokens
    rw [List.foldlM_cons]
    have hs := setting_returns hy hb h1 (fun m e => hm m (by simp [e])) tokens
    rcases hs with ⟨hok, mid, hmid⟩ | ⟨hno, he⟩
    · rw [hmid, bind_ok]
      refine (ih (fun m e => hm m (by simp [e])) mid).congr ⟨fun h i s' hi => ?_, fun h i s' hi mid' hmid' => ?_⟩
      · cases i with
        | zero =>
          intro mid' hmid'
          rw [List.getElem?_cons_zero] at hi
          cases hi
          cases hmid'
          exact hok
        | succ i =>
          intro mid' hmid'
          rw [List.take_succ_cons, List.foldlM_cons, hmid, bind_ok] at hmid'
          exact h i s' hi mid' hmid'
      · exact h (i + 1) s' hi mid' (by rw [List.take_succ_cons, List.foldlM_cons, hmid, bind_ok]; exact hmid')
    · rw [he]
      exact .inr ⟨fun h => hno (h 0 s rfl tokens rfl), rfl⟩

/-! ### Enough details -/

theorem setting_short {env : FilterEnv} {s : TokenFilterSetting} {f : TokenFilter} (hf : s.new env = .ok f) : ShortTags s := by
  have tags : ∀ {ts : List Str} {ft}, formatTags ts = .ok ft → ∀ tag ∈ ts, tag.count ',' ≤ 3 := by
    intro ts ft h
    rcases c40_new_exact ts with h' | ⟨-, h'⟩
    · exact h'.1
    · rw [h] at h'; cases h'
  cases s with
  | japaneseCompoundWord kind ts newTag =>
    unfold TokenFilterSetting.new at hf
    rw [bind_eq_ok] at hf
    obtain ⟨g, hg, -⟩ := hf
    rcases c42_new_exact env.features kind ts newTag with h' | ⟨-, h'⟩
    · exact h'.1
    · rw [hg] at h'; cases h'
  | japaneseKeepTags ts =>
    unfold TokenFilterSetting.new at hf
    rw [bind_eq_ok] at hf
    obtain ⟨g, hg, -⟩ := hf
    exact tags hg
  | japaneseStopTags ts =>
    unfold TokenFilterSetting.new at hf
    rw [bind_eq_ok] at hf
    obtain ⟨g, hg, -⟩ := hf
    exact tags hg
  | japaneseNumber ts =>
    unfold TokenFilterSetting.new at hf
    rw [bind_eq_ok] at hf
    obtain ⟨g, hg, -⟩ := hf
    intro ts' e
    subst e
    unfold formatNumberTags at hg
    rw [bind_eq_ok] at hg
    obtain ⟨ft, hft, -⟩ := hg
    exact tags hft
  | _ => trivial

/-- Details that suffice for all the filters. -/
def EnoughFor (env : FilterEnv) (ss : List TokenFilterSetting) (details : List Str) : Prop :=
  details ≠ [] ∧ ∀ s ∈ ss, ∀ i, Reads env s i → details.head? = some "UNK".toList ∨ i < details.length

theorem enough_compound {env : FilterEnv} {ss : List TokenFilterSetting} {kind : DictionaryKind} (hk : .japaneseBaseForm .unidic ∈ ss → kind = .unidic)
    {newTag : Option Str} (hshort : ∀ tag, newTag = some tag → tag.count ',' ≤ 3) {ds : List Str} (h : CompoundDetails env.features kind newTag ds) : EnoughFor env ss ds := by
  obtain ⟨n, hn, h⟩ := h
  have hlen : ds.length = n := by
    have h9 : 9 ≤ n := by rw [hn]; split <;> omega
    cases newTag with
    | none => rw [h]; simp; omega
    | some tag =>
      obtain ⟨parts, hp, rfl⟩ := h
      have h4 := hshort tag rfl
      have h5 := hp.length_eq
      have h6 : (pad parts).length = 4 := by unfold pad; simp; omega
      rw [List.length_append, h6, List.length_replicate]
      omega
  refine ⟨fun e => ?_, fun s hs i hi => .inr ?_⟩
  · rw [e] at hlen
    have : 9 ≤ n := by rw [hn]; split <;> omega
    simp at hlen
    omega
  · rw [hlen, hn]
    cases s <;> simp only [Reads] at hi
    · rcases hi with ⟨_, _, rfl⟩ | ⟨_, _, rfl⟩ | ⟨rfl, hf, rfl⟩
      · split <;> omega
      · split <;> omega
      · rw [if_pos ⟨hk hs, hf⟩]; omega
    · rcases hi with ⟨_, _, rfl⟩ | ⟨_, _, rfl⟩ | ⟨_, _, rfl⟩ <;> split <;> omega
    · subst hi
      split <;> omega

theorem retexted_all {P : FToken → Str → Prop} {Q : List Str → Prop} {ts out : List FToken} (ht : ∀ t ∈ ts, Q t.details) (h : Retexted P ts out) : ∀ t ∈ out, Q t.details := by
  induction h with
  | nil => simp
  | @cons t0 t1 _ _ h _ ih =>
    obtain ⟨s, he, -⟩ := h
    intro t ht'
    rcases List.mem_cons.mp ht' with rfl | ht'
    · rw [he]
      exact ht t0 (List.mem_cons_self ..)
    · exact ih (fun t h => ht t (List.mem_cons_of_mem _ h)) t ht'

theorem kept_all {P : FToken → Prop} {Q : List Str → Prop} {ts out : List FToken} (ht : ∀ t ∈ ts, Q t.details) (h : Kept P ts out) : ∀ t ∈ out, Q t.details := by
  induction h with
  | nil => simp
  | keep _ _ ih =>
    intro t ht'
    rcases List.mem_cons.mp ht' with rfl | ht'
    · exact ht _ (List.mem_cons_self ..)
    · exact ih (fun t h => ht t (List.mem_cons_of_mem _ h)) t ht'
  | drop _ _ ih => exact ih (fun t h => ht t (List.mem_cons_of_mem _ h))

theorem enough_effect {env : FilterEnv} {ss : List TokenFilterSetting} {s : TokenFilterSetting} (hshort : ShortTags s)
    (hk : ∀ kind tags newTag, s = .japaneseCompoundWord kind tags newTag → .japaneseBaseForm .unidic ∈ ss → kind = .unidic) {ts out : List FToken}
    (h : TokenEffect env s ts out) (ht : ∀ t ∈ ts, EnoughFor env ss t.details) : ∀ t ∈ out, EnoughFor env ss t.details := by
  have retexted : ∀ {P}, Retexted P ts out → ∀ t ∈ out, EnoughFor env ss t.details := fun h => retexted_all ht h
  have kept : ∀ {P}, Kept P ts out → ∀ t ∈ out, EnoughFor env ss t.details := fun h => kept_all ht h
  cases s with
  | japaneseCompoundWord kind tags newTag =>
    obtain ⟨runs, hr, hall⟩ := h
    intro t hto
    obtain ⟨i, hi, he⟩ := List.mem_iff_getElem.mp hto
    obtain ⟨hlen, hget⟩ := List.forall₂_iff_get.mp hall
    have hm := hget i (by omega) hi
    simp only [List.get_eq_getElem, he] at hm
    rcases hm with h1 | ⟨-, first, last, -, -, -, -, -, -, -, -, hd⟩
    · refine ht t ?_
      rw [← hr.flatten]
      exact List.mem_flatten.mpr ⟨[t], h1 ▸ List.getElem_mem (by omega), by simp⟩
    · exact enough_compound (hk kind tags newTag rfl) hshort.2 hd
  | japaneseKana kind => cases kind <;> exact retexted h
  | japaneseBaseForm _ => exact retexted h
  | japaneseReadingForm _ => exact retexted h
  | koreanReadingForm => exact retexted h
  | japaneseKatakanaStem _ => exact retexted h
  | japaneseNumber _ => exact retexted h
  | lowercase => exact retexted h
  | uppercase => exact retexted h
  | mapping _ => exact retexted h
  | japaneseKeepTags _ => exact kept h
  | japaneseStopTags _ => exact kept h
  | koreanKeepTags _ => exact kept h
  | koreanStopTags _ => exact kept h
  | keepWords _ => exact kept h
  | stopWords _ => exact kept h
  | length _ _ => exact kept h

theorem enough_accepts {env : FilterEnv} {ss : List TokenFilterSetting} {s : TokenFilterSetting} (hs : s ∈ ss) (h1 : ∀ min, s ≠ .japaneseKatakanaStem min)
    (h2 : ∀ tags, s ≠ .japaneseNumber tags) {ts : List FToken} (ht : ∀ t ∈ ts, EnoughFor env ss t.details) : TokenAccepts env s ts := by
  have every : ∀ t ∈ ts, (∃ i, Reads env s i) → t.details.head? = some "UNK".toList ∨ ∀ i, Reads env s i → i < t.details.length := by
    intro t h _
    by_cases hu : t.details.head? = some "UNK".toList
    · exact .inl hu
    · exact .inr fun i hi => ((ht t h).2 s hs i hi).resolve_left hu
  cases s with
  | japaneseKatakanaStem min => exact absurd rfl (h1 min)
  | japaneseNumber tags => exact absurd rfl (h2 tags)
  | japaneseBaseForm kind =>
    intro t h
    refine ⟨(ht t h).1, ?_⟩
    by_cases he : ∃ i, Reads env (.japaneseBaseForm kind) i
    · exact every t h he
    · exact .inr fun i hi => absurd ⟨i, hi⟩ he
  | japaneseReadingForm kind =>
    intro t h
    refine ⟨(ht t h).1, ?_⟩
    by_cases he : ∃ i, Reads env (.japaneseReadingForm kind) i
    · exact every t h he
    · exact .inr fun i hi => absurd ⟨i, hi⟩ he
  | koreanReadingForm => exact fun t h => (ht t h).2 _ hs 3 rfl
  | japaneseCompoundWord _ _ _ => exact fun t h => (ht t h).1
  | japaneseKeepTags _ => exact fun t h => (ht t h).1
  | japaneseStopTags _ => exact fun t h => (ht t h).1
  | koreanKeepTags _ => exact fun t h => (ht t h).1
  | koreanStopTags _ => exact fun t h => (ht t h).1
  | _ => trivial

theorem enough_ok {env : FilterEnv} {all : List TokenFilterSetting} : ∀ (ss : List TokenFilterSetting), (∀ s ∈ ss, s ∈ all) → (∀ s ∈ ss, ShortTags s) →
    (∀ min, .japaneseKatakanaStem min ∉ all) → (∀ tags, .japaneseNumber tags ∉ all) →
    (∀ kind tags newTag, .japaneseCompoundWord kind tags newTag ∈ all → .japaneseBaseForm .unidic ∈ all → kind = .unidic) →
    ∀ ts : List FToken, (∀ t ∈ ts, EnoughFor env all t.details) → TokenOk env ss ts
  | [], _, _, _, _, _, _, _ => trivial
  | s :: ss, hsub, hsh, h1, h2, h3, ts, ht =>
    ⟨enough_accepts (hsub s (by simp)) (fun m e => h1 m (e ▸ hsub s (by simp))) (fun m e => h2 m (e ▸ hsub s (by simp))) ht,
      fun mid hmid => enough_ok ss (fun s' h => hsub s' (by simp [h])) (fun s' h => hsh s' (by simp [h])) h1 h2 h3 mid
        (enough_effect (hsh s (by simp)) (fun k ts' n e => h3 k ts' n (e ▸ hsub s (by simp))) hmid ht)⟩

theorem shown_details {byte pos : Nat} {items : List Item} {ts : List FToken} (h : Shown byte pos items ts) : ∀ t ∈ ts, ∃ w ∈ items, t.details = w.details := by
  induction h with
  | nil => simp
  | cons _ _ _ _ _ hd _ ih =>
    intro t ht
    rcases List.mem_cons.mp ht with rfl | ht
    · exact ⟨_, by simp, hd⟩
    · obtain ⟨w, hw, e⟩ := ih t ht
      exact ⟨w, by simp [hw], e⟩

theorem segFrom_words {L : Lexicon} {mode : Mode} {text : Str} : ∀ {ws : List Item} {pre : Str}, L.SegFrom mode text pre ws →
    ∀ w ∈ ws, w ∈ L.words ∨ w.details = ["UNK".toList]
  | w :: ws, pre, ⟨⟨rest, reach, latest, _, _, hw⟩, hrest⟩, w', hw' => by
    rcases List.mem_cons.mp hw' with rfl | hw'
    · rcases hw with h | ⟨-, _, _, s, l, -, -, -, rfl⟩
      · exact .inl h.1
      · exact .inr rfl
    · exact segFrom_words hrest w' hw'

end Verif.Model
