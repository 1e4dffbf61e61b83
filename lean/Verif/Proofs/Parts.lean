import Verif.Proofs.Apart
import Verif.Props.EndToEnd
/-! Texts in two parts. -/
namespace Verif.Model
open Verif.Spec Verif.Props

/-! ### Mappings -/

/-- A text that ends in the character, or the empty text. -/
def EndsIn (d : Char) (t : Str) : Prop := t = [] ∨ t.getLast? = some d

theorem endsIn_drop {d : Char} {k r : Str} (h : EndsIn d (k ++ r)) : EndsIn d r := by
  by_cases hr : r = []
  · exact .inl hr
  · rcases h with h | h
    · exact .inl (List.append_eq_nil_iff.mp h).2
    · refine .inr ?_
      rw [List.getLast?_append_of_ne_nil _ hr] at h
      exact h

theorem short_prefix {d : Char} {k t y : Str} (hd : d ∉ k) (ht : t.getLast? = some d) (h : k <+: t ++ y) : k <+: t := by
  rcases List.prefix_or_prefix_of_prefix h (List.prefix_append t y) with h | h
  · exact h
  · exact absurd (h.subset (List.mem_of_getLast? ht)) hd

theorem longestMatch_parts {m : StrMap} {d : Char} (hk : ∀ k v, (k, v) ∈ m → k ≠ []) (hd : ∀ k v, (k, v) ∈ m → d ∉ k) {t : Str} {ps : List Piece} (h : LongestMatch m t ps)
    {y : Str} {qs : List Piece} (hy : LongestMatch m y qs) : EndsIn d t → LongestMatch m (t ++ y) (ps ++ qs) := by
  induction h with
  | done => intro _; exact hy
  | replace k v r ps mem longest rest ih =>
    intro he
    rw [List.append_assoc, List.cons_append]
    refine .replace k v _ _ mem (fun k' v' h' hp => ?_) (ih (endsIn_drop he))
    rcases he with he | he
    · exact absurd (List.append_eq_nil_iff.mp he).1 (hk k v mem)
    · exact longest k' v' h' (short_prefix (hd k' v' h') he (by rwa [List.append_assoc]))
  | keep c r ps noKey rest ih =>
    intro he
    rw [List.cons_append, List.cons_append]
    refine .keep c _ _ (fun k v h' hp => ?_) (ih (endsIn_drop (k := [c]) he))
    rcases he with he | he
    · simp at he
    · exact noKey k v h' (short_prefix (hd k v h') he (by rwa [List.cons_append]))

theorem longestMatch_ends {m : StrMap} {d : Char} (hk : ∀ k v, (k, v) ∈ m → k ≠ []) (hd : ∀ k v, (k, v) ∈ m → d ∉ k) {t : Str} {ps : List Piece} (h : LongestMatch m t ps) :
    t.getLast? = some d → (target ps).getLast? = some d := by
  have last : ∀ {k r : Str}, (k ++ r).getLast? = some d → r ≠ [] → r.getLast? = some d := by
    intro k r h hr
    rwa [List.getLast?_append_of_ne_nil _ hr] at h
  have tail : ∀ {p : Piece} {ps : List Piece}, (target ps).getLast? = some d → (target (p :: ps)).getLast? = some d := by
    intro p ps h
    have hne : target ps ≠ [] := by intro he; rw [he] at h; cases h
    rw [show target (p :: ps) = p.dst ++ target ps by simp [target], List.getLast?_append_of_ne_nil _ hne]
    exact h
  induction h with
  | done => intro h; cases h
  | replace k v r ps mem longest rest ih =>
    intro he
    by_cases hr : r = []
    · subst hr
      rw [List.append_nil] at he
      exact absurd (List.mem_of_getLast? he) (hd k v mem)
    · exact tail (ih (last he hr))
  | keep c r ps noKey rest ih =>
    intro he
    by_cases hr : r = []
    · subst hr
      have hps : ps = [] := by
        generalize hr : ([] : Str) = r at rest
        cases rest with
        | done => rfl
        | replace k v r' ps' mem longest rest' => exact absurd (List.append_eq_nil_iff.mp hr.symm).1 (hk k v mem)
        | keep c r' ps' noKey rest' => cases hr
      subst hps
      simpa [target] using he
    · exact tail (ih (last (k := [c]) he hr))

theorem longestMatch_dst {m : StrMap} (hv : ∀ k v, (k, v) ∈ m → v ≠ []) {t : Str} {ps : List Piece} (h : LongestMatch m t ps) : ∀ p ∈ ps, p.dst ≠ [] := by
  induction h with
  | done => simp
  | replace k v r ps mem longest rest ih =>
    intro p hp
    rcases List.mem_cons.mp hp with rfl | hp
    · exact hv k v mem
    · exact ih p hp
  | keep c r ps noKey rest ih =>
    intro p hp
    rcases List.mem_cons.mp hp with rfl | hp
    · simp
    · exact ih p hp

/-! ### Offsets -/

theorem sourceOffset_zero {qs : List Piece} (h : ∀ q, qs.head? = some q → q.dst ≠ []) : sourceOffset qs 0 = 0 := by
  cases qs with
  | nil => rfl
  | cons q qs => rw [sourceOffset, if_pos (blen_pos (h q rfl))]; simp

theorem sourceOffset_first {qs : List Piece} (h : ∀ q, qs.head? = some q → q.dst ≠ []) : ∀ (ps : List Piece) (o : Nat), o ≤ blen (target ps) → sourceOffset (ps ++ qs) o = sourceOffset ps o := by
  intro ps
  induction ps with
  | nil =>
    intro o ho
    have : o = 0 := by simpa [target] using ho
    subst this
    exact sourceOffset_zero h
  | cons p ps ih =>
    intro o ho
    rw [List.cons_append, sourceOffset, sourceOffset]
    rw [show target (p :: ps) = p.dst ++ target ps by simp [target], blen_append] at ho
    split
    · rfl
    · rw [ih _ (by omega)]

theorem sourceOffset_second (qs : List Piece) : ∀ (ps : List Piece) (o : Nat), sourceOffset (ps ++ qs) (blen (target ps) + o) = blen (source ps) + sourceOffset qs o := by
  intro ps
  induction ps with
  | nil => intro o; simp [target, source]
  | cons p ps ih =>
    intro o
    rw [show target (p :: ps) = p.dst ++ target ps by simp [target], show source (p :: ps) = p.src ++ source ps by simp [source], blen_append, blen_append, List.cons_append,
      sourceOffset, if_neg (by omega), show blen p.dst + blen (target ps) + o - blen p.dst = blen (target ps) + o by omega, ih]
    omega

/-! ### Chains of mappings -/

/-- The character filters treat the two parts of a text separately. -/
structure ChainParts (d : Char) (fs : List CharFilter) (t y : Str) (s1 s2 s : List (List Piece)) (f1 f2 : Str) : Prop where
  first : FilterChain fs t s1 f1
  second : FilterChain fs y s2 f2
  both : FilterChain fs (t ++ y) s (f1 ++ f2)
  last : f1.getLast? = some d
  before : ∀ o, o ≤ blen f1 → sourceThrough s o = sourceThrough s1 o
  after : ∀ o, sourceThrough s (blen f1 + o) = blen t + sourceThrough s2 o

theorem chain_parts {d : Char} {fs : List CharFilter} {t y : Str} (h : CutApart d fs t y) : ∃ s1 s2 s f1 f2, ChainParts d fs t y s1 s2 s f1 f2 := by
  induction h with
  | @nil t y ht => exact ⟨[], [], [], t, y, .nil _, .nil _, .nil _, ht, fun _ _ => rfl, fun _ => rfl⟩
  | @cons f fs t y ps qs h1 h2 h3 h4 _ ih =>
    obtain ⟨s1, s2, s, f1, f2, hc⟩ := ih
    refine ⟨ps :: s1, qs :: s2, (ps ++ qs) :: s, f1, f2, ⟨.cons _ _ _ _ _ _ h1 hc.first, .cons _ _ _ _ _ _ h2 hc.second, .cons _ _ _ _ _ _ h3 ?_, hc.last, fun o ho => ?_, fun o => ?_⟩⟩
    · rw [target_append]; exact hc.both
    · rw [sourceThrough, sourceThrough, hc.before o ho, sourceOffset_first h4]
      exact (FilterChain.bounds hc.first (Nat.le_refl o)).2 ho
    · rw [sourceThrough, sourceThrough, hc.after, sourceOffset_second, h1.cut]

theorem mappings_apart {env : FilterEnv} (hy : YadaContract env.yada) {d : Char} {ms : List StrMap} {fs : List CharFilter}
    (h : List.Forall₂ (fun m f => (CharFilterSetting.mapping m).new env = .ok f) ms fs) (hok : ∀ m ∈ ms, MappingOk m) (hd : ∀ m ∈ ms, ∀ k v, (k, v) ∈ m → d ∉ k)
    (hv : ∀ m ∈ ms, ∀ k v, (k, v) ∈ m → v ≠ []) : ∀ (t y : Str), t.getLast? = some d → CutApart d fs t y := by
  induction h with
  | nil => exact fun t y ht => .nil ht
  | @cons m f ms fs h1 _ ih =>
    intro t y ht
    have hm := hok m (by simp)
    have hk : ∀ k v, (k, v) ∈ m → k ≠ [] := fun k v h => (hm.keys k v h).1
    have hf : f = Mapping.filter ⟨m, ⟨Mapping.keyset m⟩⟩ := by
      have h2 : (CharFilterSetting.mapping m).new env = .ok (Mapping.filter ⟨m, ⟨Mapping.keyset m⟩⟩) := by
        simp only [CharFilterSetting.new, Mapping.new_ok hy hm, bind_ok]; rfl
      rw [h1] at h2
      cases h2
      rfl
    have hfil := fun text => c38_mapping_filtered hy hm (Mapping.new_ok hy hm) text
    rw [← hf] at hfil
    obtain ⟨ps, hp1, hp2⟩ := hfil t
    obtain ⟨qs, hq1, hq2⟩ := hfil y
    obtain ⟨rs, hr1, hr2⟩ := hfil (t ++ y)
    have hcut := longestMatch_parts hk (hd m (by simp)) hp1 hq1 (.inr ht)
    obtain rfl := LongestMatch.unique hm hr1 hcut
    exact .cons hp2 hq2 hr2 (fun q hq => longestMatch_dst (hv m (by simp)) hq1 q (List.mem_of_head? hq))
      (ih (fun m h => hok m (by simp [h])) (fun m h => hd m (by simp [h])) (fun m h => hv m (by simp [h])) (target ps) (target qs) (longestMatch_ends hk (hd m (by simp)) hp1 ht))

/-! ### Normalization and regular expressions -/

theorem normalize_apart {d : Char} (f : UnicodeNormalize) {fs : List CharFilter} {t y : Str} (ht : (f.graphemes t).flatten = t) (hy : (f.graphemes y).flatten = y)
    (hg : f.graphemes (t ++ y) = f.graphemes t ++ f.graphemes y) (hne : ∀ g ∈ f.graphemes (t ++ y), g ≠ []) (hn : ∀ g, f.normalForm g = [] → g = [])
    (hrest : CutApart d fs ((f.graphemes t).map f.normalForm).flatten ((f.graphemes y).map f.normalForm).flatten) : CutApart d (f.filter :: fs) t y := by
  have htarget : ∀ gs : List Str, target (gs.map fun g => (⟨g, f.normalForm g⟩ : Piece)) = (gs.map f.normalForm).flatten := by
    intro gs
    simp [target, List.flatMap_def, List.map_map, Function.comp_def]
  have h3 := f.filtered (t ++ y) (by rw [hg, List.flatten_append, ht, hy]) hne
  rw [hg] at hne h3
  rw [List.map_append] at h3
  refine .cons (f.filtered t ht fun g h => hne g (by simp [h])) (f.filtered y hy fun g h => hne g (by simp [h])) h3 (fun q hq => ?_) (by rw [htarget, htarget]; exact hrest)
  have := List.mem_of_head? hq
  rw [List.mem_map] at this
  obtain ⟨g, hg, rfl⟩ := this
  exact fun h => hne g (by simp [hg]) (hn g h)

theorem matches_shift {dst : Str} {o : Nat} {ms : List RegexMatch} {s : Str} {ps : List Piece} (h : Matches (fun _ => dst) o ms s ps) (b : Nat) :
    Matches (fun _ => dst) (b + o) (ms.map (movedMatch b)) s ps := by
  induction h with
  | done o s => exact .done _ s
  | hit o m ms gap mt r ps start stop _ ih =>
    exact .hit (b + o) (movedMatch b m) _ gap mt r ps (by simp [movedMatch, start]; omega) (by simp [movedMatch, stop]; omega) ih

theorem matches_gap {dst : RegexMatch → Str} {o : Nat} {s : Str} {ms : List RegexMatch} {y : Str} {qs : List Piece} (h : Matches dst (o + blen s) ms y qs) :
    Matches dst o ms (s ++ y) (copied s ++ qs) := by
  generalize ho : o + blen s = o' at h
  cases h with
  | done _ _ => rw [show copied s ++ copied y = copied (s ++ y) by simp [copied]]; exact .done _ _
  | hit _ m ms gap mt r ps start stop rest =>
    rw [show s ++ (gap ++ mt ++ r) = (s ++ gap) ++ mt ++ r by simp, ← List.append_assoc, show copied s ++ copied gap = copied (s ++ gap) by simp [copied]]
    exact .hit o m ms (s ++ gap) mt r ps (by rw [blen_append]; omega) stop rest

theorem matches_append {dst : RegexMatch → Str} {o : Nat} {ms : List RegexMatch} {s : Str} {ps : List Piece} (h : Matches dst o ms s ps) {ms' : List RegexMatch} {y : Str} {qs : List Piece} :
    Matches dst (o + blen s) ms' y qs → Matches dst o (ms ++ ms') (s ++ y) (ps ++ qs) := by
  induction h with
  | done o s => exact matches_gap
  | hit o m ms gap mt r ps start stop _ ih =>
    intro h'
    rw [blen_append, blen_append] at h'
    rw [show gap ++ mt ++ r ++ y = gap ++ mt ++ (r ++ y) by simp, List.append_assoc (copied gap), List.cons_append, List.cons_append]
    exact .hit o m _ gap mt _ _ start stop (ih (by rw [stop, start]; convert h' using 1; omega))

theorem copied_dst {s : Str} : ∀ p ∈ copied s, p.dst ≠ [] := by
  intro p hp
  simp only [copied, List.mem_map] at hp
  obtain ⟨c, _, rfl⟩ := hp
  simp

theorem matches_dst {dst : Str} (hd : dst ≠ []) {o : Nat} {ms : List RegexMatch} {s : Str} {ps : List Piece} (h : Matches (fun _ => dst) o ms s ps) : ∀ p ∈ ps, p.dst ≠ [] := by
  induction h with
  | done o s => exact copied_dst
  | hit o m ms gap mt r ps start stop _ ih =>
    intro p hp
    rcases List.mem_append.mp hp with hp | hp
    · exact copied_dst p hp
    · rcases List.mem_cons.mp hp with rfl | hp
      · exact hd
      · exact ih p hp

theorem regex_apart {d : Char} (f : RegexFilter) {fs : List CharFilter} {t y : Str} {ps qs : List Piece} (hlit : '$' ∉ f.replacement) (hr : f.replacement ≠ [])
    (hp : Matches (fun _ => f.replacement) 0 (f.findIter t) t ps) (hq : Matches (fun _ => f.replacement) 0 (f.findIter y) y qs) (hne : ∀ p ∈ ps ++ qs, p.src ≠ [])
    (hm : f.findIter (t ++ y) = f.findIter t ++ (f.findIter y).map (movedMatch (blen t))) (hrest : CutApart d fs (target ps) (target qs)) : CutApart d (f.filter :: fs) t y := by
  have h3 : Matches (fun _ => f.replacement) 0 (f.findIter (t ++ y)) (t ++ y) (ps ++ qs) := by
    rw [hm]
    refine matches_append hp ?_
    have := matches_shift hq (blen t)
    rw [Nat.add_zero] at this
    rwa [Nat.zero_add]
  exact .cons (c38_regex_filtered f t ps hlit hp fun p h => hne p (by simp [h])) (c38_regex_filtered f y qs hlit hq fun p h => hne p (by simp [h])) (c38_regex_filtered f _ _ hlit h3 hne)
    (fun q h => matches_dst hr hq q (List.mem_of_head? h)) hrest

/-! ### Tokens -/

/-- The tokens of a text before the token filters. -/
def Tokenizer.shownTokens (t : Tokenizer) (text : Str) : R (List FToken) := do
  let tmp ← t.tokenize text
  tmp.mapM (Token.analyzed t.dictionary t.userDictionary)

theorem Token.analyzed_moved {dict : Dictionary} {user : Option UserDictionary} {b n : Nat} {t : Token} : Token.analyzed dict user
    { t with byteStart := b + t.byteStart, byteEnd := b + t.byteEnd, position := n + t.position } = (do
      let f ← Token.analyzed dict user t
      return relocate (b + ·) n f) := by
  obtain ⟨text, bs, be, pos, len, id, details⟩ := t
  unfold Token.analyzed Token.getDetails Token.lookupDetails
  cases details with
  | some d => rfl
  | none =>
    dsimp only [Option.isSome]
    split
    · cases ‹false = true›
    · by_cases hu : id.isUnknown = true
      · simp only [hu, if_true]
        rfl
      · simp only [hu]
        cases (if id.isSystem = true then dict.wordDetails id.id.toNat else match user with | some u => u.wordDetails id.id.toNat | none => .ok none) with
        | error e => rfl
        | ok d => cases d <;> rfl

theorem shownTokens_parts {t : Tokenizer} (hc : Complete t) {f1 f2 : Str} {d : Char} (hd : d ∈ delimiters) (hlast : f1.getLast? = some d) (out : List FToken) :
    t.shownTokens (f1 ++ f2) = .ok out ↔ ∃ A B, t.shownTokens f1 = .ok A ∧ t.shownTokens f2 = .ok B ∧ out = A ++ B.map (relocate (blen f1 + ·) A.length) := by
  obtain ⟨x, rfl⟩ : ∃ x, f1 = x ++ [d] := by
    obtain ⟨x, hx⟩ := List.getLast?_eq_some_iff.mp hlast
    exact ⟨x, hx⟩
  unfold Tokenizer.shownTokens
  rw [c05_compositional hc x f2 hd]
  cases h1 : t.tokenize (x ++ [d]) with
  | error e => simp
  | ok ta =>
    cases h2 : t.tokenize f2 with
    | error e => simp
    | ok tb =>
      simp only [bind_ok, pure_eq_ok]
      rw [mapM_append_R, mapM_commutes (h := relocate (blen (x ++ [d]) + ·) ta.length) (f := Token.analyzed t.dictionary t.userDictionary) (fun _ => Token.analyzed_moved)]
      cases h3 : ta.mapM (Token.analyzed t.dictionary t.userDictionary) with
      | error e => simp
      | ok A =>
        have hlen : A.length = ta.length := ((mapM_ok_iff.mp h3).length_eq).symm
        cases h4 : tb.mapM (Token.analyzed t.dictionary t.userDictionary) with
        | error e => simp
        | ok B =>
          simp only [bind_ok, pure_eq_ok, Except.ok.injEq]
          constructor
          · rintro rfl; exact ⟨A, B, rfl, rfl, by rw [hlen]⟩
          · rintro ⟨A', B', rfl, rfl, rfl⟩; rw [hlen]

theorem Analyzer.tokens_shown (a : Analyzer) (text : Str) : a.tokens text = (do
    let ts ← a.tokenizer.shownTokens text
    a.tokenFilters.foldlM (fun ts f => f ts) ts) := by
  unfold Analyzer.tokens Tokenizer.shownTokens
  cases a.tokenizer.tokenize text with
  | error e => simp
  | ok tmp => simp

theorem chain_analyze_iff {a : Analyzer} {text : Str} {stages : List (List Piece)} {final : Str} (hc : FilterChain a.characterFilters text stages final) (out : List FToken) :
    a.analyze text = .ok out ↔ ∃ toks, a.tokens final = .ok toks ∧ out = toks.map (relocate (sourceThrough stages) 0) := by
  have hmap : ∀ toks : List FToken, toks.map (fun t => FToken.withRange t (sourceThrough stages t.byteStart) (sourceThrough stages t.byteEnd)) =
      toks.map (relocate (sourceThrough stages) 0) := by
    intro toks
    refine List.map_congr_left fun t _ => ?_
    simp [FToken.withRange, relocate]
  constructor
  · intro h
    cases ht : a.tokens final with
    | error e =>
      obtain ⟨new, h1, h2⟩ := Filtering.fold_spec hc []
      unfold Analyzer.analyze at h
      rw [h1, bind_ok] at h
      dsimp only at h
      rw [ht] at h
      cases h
    | ok toks =>
      rw [FilterChain.analyze hc ht, hmap] at h
      cases h
      exact ⟨toks, rfl, rfl⟩
  · rintro ⟨toks, ht, rfl⟩
    rw [FilterChain.analyze hc ht, hmap]

theorem analyze_parts {a : Analyzer} {d : Char} {t y : Str} {s1 s2 s : List (List Piece)} {f1 f2 : Str} (hp : ChainParts d a.characterFilters t y s1 s2 s f1 f2)
    (hc : Complete a.tokenizer) (hd : d ∈ delimiters) {env : FilterEnv} {settings : List TokenFilterSetting}
    (hf : List.Forall₂ (fun s f => s.new env = .ok f) settings a.tokenFilters)
    (hapart : ∀ A B, (Analyzer.mk a.characterFilters a.tokenizer []).analyze t = .ok A → (Analyzer.mk a.characterFilters a.tokenizer []).analyze y = .ok B → Apart env settings A B)
    (out : List FToken) : a.analyze (t ++ y) = .ok out ↔ ∃ all ta tb, (Analyzer.mk a.characterFilters a.tokenizer []).analyze t = .ok all ∧ a.analyze t = .ok ta ∧ a.analyze y = .ok tb ∧
      out = ta ++ tb.map (moved (blen t) all.length) := by
  have plain : ∀ {text : Str} {st : List (List Piece)} {fin : Str}, FilterChain a.characterFilters text st fin → ∀ A, (Analyzer.mk a.characterFilters a.tokenizer []).analyze text = .ok A ↔
      ∃ B, a.tokenizer.shownTokens fin = .ok B ∧ A = B.map (relocate (sourceThrough st) 0) := by
    intro text st fin h A
    rw [chain_analyze_iff (a := Analyzer.mk a.characterFilters a.tokenizer []) h]
    simp only [Analyzer.tokens_shown, bind_eq_ok, List.foldlM_nil, pure_eq_ok, Except.ok.injEq]
    constructor
    · rintro ⟨toks, ⟨ts, h1, rfl⟩, rfl⟩; exact ⟨_, h1, rfl⟩
    · rintro ⟨B, h1, rfl⟩; exact ⟨B, ⟨B, h1, rfl⟩, rfl⟩
  have hsource : ∀ f ∈ a.tokenFilters, ∃ env s, TokenFilterSetting.new env s = .ok f := by
    intro f hm
    obtain ⟨i, hi⟩ := List.getElem?_of_mem hm
    have := List.forall₂_iff_get.mp hf
    obtain ⟨hi1, rfl⟩ := List.getElem?_eq_some_iff.mp hi
    exact ⟨env, _, this.2 i (by rw [this.1]; exact hi1) hi1⟩
  have hap : ∀ A B, a.tokenizer.shownTokens f1 = .ok A → a.tokenizer.shownTokens f2 = .ok B → Apart env settings A B := by
    intro A B h1 h2
    exact apart_relocate _ _ (hapart _ _ ((plain hp.first _).mpr ⟨A, h1, rfl⟩) ((plain hp.second _).mpr ⟨B, h2, rfl⟩))
  have bound : ∀ A x, a.tokenizer.shownTokens f1 = .ok A → a.tokenFilters.foldlM (fun ts f => f ts) A = .ok x → x.map (relocate (sourceThrough s) 0) = x.map (relocate (sourceThrough s1) 0) := by
    intro A x h1 h2
    unfold Tokenizer.shownTokens at h1
    rw [bind_eq_ok] at h1
    obtain ⟨tmp, h3, h4⟩ := h1
    have hl := filters_lined _ hsource A x h2 (analyzed_lined h3 h4)
    refine List.map_congr_left fun t ht => ?_
    obtain ⟨g1, g2, -⟩ := hl.1 t ht
    unfold relocate
    rw [hp.before _ (by omega), hp.before _ g2]
  have shift : ∀ (n : Nat) (ys : List FToken), (ys.map (relocate (blen f1 + ·) n)).map (relocate (sourceThrough s) 0) = (ys.map (relocate (sourceThrough s2) 0)).map (moved (blen t) n) := by
    intro n ys
    rw [List.map_map, List.map_map]
    refine List.map_congr_left fun t _ => ?_
    simp only [Function.comp, relocate, moved, hp.after, Nat.zero_add]
  rw [chain_analyze_iff hp.both]
  simp only [Analyzer.tokens_shown, bind_eq_ok]
  constructor
  · rintro ⟨toks, ⟨ts, h1, h2⟩, rfl⟩
    obtain ⟨A, B, hA, hB, rfl⟩ := (shownTokens_parts hc hd hp.last ts).mp h1
    obtain ⟨x, y', hx, hy', rfl⟩ := (filters_split hf (hap A B hA hB) _ _ toks).mp h2
    refine ⟨A.map (relocate (sourceThrough s1) 0), x.map (relocate (sourceThrough s1) 0), y'.map (relocate (sourceThrough s2) 0), (plain hp.first _).mpr ⟨A, hA, rfl⟩,
      (chain_analyze_iff hp.first _).mpr ⟨x, by rw [Analyzer.tokens_shown, hA]; exact hx, rfl⟩, (chain_analyze_iff hp.second _).mpr ⟨y', by rw [Analyzer.tokens_shown, hB]; exact hy', rfl⟩, ?_⟩
    rw [List.map_append, bound A x hA hx, shift, List.length_map]
  · rintro ⟨all, ta, tb, h1, h2, h3, rfl⟩
    obtain ⟨A, hA, rfl⟩ := (plain hp.first _).mp h1
    obtain ⟨x, hx, rfl⟩ := (chain_analyze_iff hp.first _).mp h2
    obtain ⟨y', hy', rfl⟩ := (chain_analyze_iff hp.second _).mp h3
    rw [Analyzer.tokens_shown, hA, bind_ok] at hx
    rw [Analyzer.tokens_shown, bind_eq_ok] at hy'
    obtain ⟨B, hB, hy'⟩ := hy'
    refine ⟨x ++ y'.map (relocate (blen f1 + ·) A.length), ⟨_, (shownTokens_parts hc hd hp.last _).mpr ⟨A, B, hA, hB, rfl⟩, (filters_split hf (hap A B hA hB) _ _ _).mpr ⟨x, y', hx, hy', rfl⟩⟩, ?_⟩
    rw [List.map_append, bound A x hA hx, shift, List.length_map]

end Verif.Model
