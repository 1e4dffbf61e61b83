import Verif.Proofs.FilterOrder
import Verif.Props.TokenFilter
/-! Applying token filters twice and in another order: C78, C79. -/
namespace Verif.Props
open Verif.Model Verif.Spec

/-! ### C78 A token filter applied twice does the same as applied once -/

/-- C78, the filters that select tokens. -/
theorem c78_select {f : TokenFilter} (h : SelectFilter f) : Idempotent f := by
  obtain ⟨p, rfl⟩ := h.eq
  exact retain_twice p

/-- C78, the base form and reading form filters, also where a detail equals a key of another token. -/
theorem c78_forms {f : TokenFilter} (h : FormFilter f) : Idempotent f := by
  obtain ⟨c, rfl⟩ := h.eq
  exact rewriteText_twice fun _ _ => formText_twice

/-- C78, the compound-word filter with any configuration, also if compound words get a tag that is itself merged. -/
theorem c78_compound (features : Features) (kind : DictionaryKind) (tags : List Str) (newTag : Option Str) (f : CompoundWord)
    (_ : CompoundWord.new features kind tags newTag = .ok f) : Idempotent f.apply := compound_twice f

/-- C78, the number filter with any configured tags. -/
theorem c78_number (tags : Option (List Str)) : Idempotent (japaneseNumber tags) :=
  rewriteText_twice fun _ _ => numberText_twice

theorem rewriteText_idempotent_iff (g : Str → Str) : Idempotent (rewriteText fun t => .ok (g t.text)) ↔ ∀ s, g (g s) = g s := by
  constructor
  · intro h s
    have h1 : rewriteText (fun t => .ok (g t.text)) [⟨s, 0, 0, 0, 1, ⟨0, true⟩, []⟩] = .ok [⟨g s, 0, 0, 0, 1, ⟨0, true⟩, []⟩] := rfl
    have h2 := h _ _ h1
    have h3 : rewriteText (fun t => .ok (g t.text)) [⟨g s, 0, 0, 0, 1, ⟨0, true⟩, []⟩] = .ok [⟨g (g s), 0, 0, 0, 1, ⟨0, true⟩, []⟩] := rfl
    rw [h3] at h2
    simpa using h2
  · intro h
    refine rewriteText_twice fun t s hs => ?_
    cases hs
    exact congrArg _ (h _)

/-- C78, the case and kana filters: exactly if the conversion of the library is idempotent. -/
theorem c78_conversions (g : Str → Str) : (Idempotent (uppercase g) ↔ ∀ s, g (g s) = g s) ∧ (Idempotent (lowercase g) ↔ ∀ s, g (g s) = g s) ∧
    (∀ h, Idempotent (japaneseKana g h .hiragana) ↔ ∀ s, g (g s) = g s) ∧ (∀ h, Idempotent (japaneseKana h g .katakana) ↔ ∀ s, g (g s) = g s) :=
  ⟨rewriteText_idempotent_iff g, rewriteText_idempotent_iff g, fun _ => rewriteText_idempotent_iff g, fun _ => rewriteText_idempotent_iff g⟩

/-- C78, the mapping filter, where no key occurs in a text it put out. Missing: outputs with keys (`c78_mapping_fails`). -/
theorem c78_mapping_partial {yada : DaBuilder} (hy : YadaContract yada) {m : StrMap} (hm : MappingOk m) (f : Mapping) (hf : Mapping.new yada m = .ok f)
    (tokens out : List FToken) (_ho : f.tokenFilter tokens = .ok out) (hk : ∀ t ∈ out, ∀ k v, (k, v) ∈ m → ¬ k <:+: t.text) : f.tokenFilter out = .ok out := by
  obtain ⟨f', hf', h⟩ := c56_mapping_tokens hy hm
  rw [hf] at hf'; cases hf'
  obtain ⟨out', h1, h2⟩ := h out
  rw [h1]
  congr 1
  clear h1 _ho
  induction h2 with
  | nil => rfl
  | @cons t t' ts ts' ht _ ih =>
    obtain ⟨ps, hp, _, rfl⟩ := ht
    rw [hp.noKey (hk t (by simp)), ih (fun t ht => hk t (by simp [ht]))]

/-- The mapping filter is not idempotent: a value may contain a key, and a new key may arise where a value meets the text around it. -/
theorem c78_mapping_fails : ∃ f g : Mapping, Mapping.new Src.yada [(['a'], ['b']), (['b'], ['c'])] = .ok f ∧ ¬ Idempotent f.tokenFilter ∧
    Mapping.new Src.yada [("ab".toList, ['a'])] = .ok g ∧ ¬ Idempotent g.tokenFilter := by
  refine ⟨_, _, rfl, ?_, rfl, ?_⟩
  · intro h
    have h1 := h [Tf.tok "a" 0 1 0 ["x"]] [Tf.tok "b" 0 1 0 ["x"]] (by decide +kernel)
    revert h1; decide +kernel
  · intro h
    have h1 := h [Tf.tok "abb" 0 3 0 ["x"]] [Tf.tok "ab" 0 3 0 ["x"]] (by decide +kernel)
    revert h1; decide +kernel

/-- The katakana stem filter is not idempotent for any limit: of two final marks each application removes one. -/
theorem c78_stem_fails {block : Char → Option (Nat × Nat)} (hb : KatakanaBlock block) (min : Nat) : ¬ Idempotent (katakanaStem block min) := by
  intro h
  have hkb : block 'ア' = some (0x30A0, 0x30FF) := (hb 'ア').mpr (by decide)
  have hvb : block 'ー' = some (0x30A0, 0x30FF) := (hb 'ー').mpr (by decide)
  -- texts of `min + 1` letters and some marks
  have key : ∀ n : Nat, katakanaStem block min [⟨List.replicate (min + 1) 'ア' ++ List.replicate (n + 1) 'ー', 0, 0, 0, 1, ⟨0, true⟩, []⟩] =
      .ok [⟨List.replicate (min + 1) 'ア' ++ List.replicate n 'ー', 0, 0, 0, 1, ⟨0, true⟩, []⟩] := by
    intro n
    have hall : ∀ c ∈ List.replicate (min + 1) 'ア' ++ List.replicate (n + 1) 'ー', block c = some (0x30A0, 0x30FF) := by
      intro c hc
      rcases List.mem_append.mp hc with hc | hc
      · rw [List.eq_of_mem_replicate hc, hkb]
      · rw [List.eq_of_mem_replicate hc, hvb]
    obtain ⟨out, ho, hf⟩ := c46_stem_partial hb min
      [⟨List.replicate (min + 1) 'ア' ++ List.replicate (n + 1) 'ー', 0, 0, 0, 1, ⟨0, true⟩, []⟩] (by
        intro t ht c hc
        rw [List.mem_singleton] at ht
        subst ht
        rw [hall c hc]; rfl)
    rw [ho]
    have e : List.replicate (min + 1) 'ア' ++ List.replicate (n + 1) 'ー' = (List.replicate (min + 1) 'ア' ++ List.replicate n 'ー') ++ ['ー'] := by
      rw [List.append_assoc, ← List.replicate_succ']
    rcases hf with _ | ⟨h1, hnil⟩
    cases hnil
    rcases h1 with ⟨_, _, stem, hs, rfl⟩ | ⟨hn, _⟩
    · dsimp only at hs ⊢
      rw [e] at hs
      rw [← List.append_cancel_right hs]
    · refine absurd ⟨fun c hc => (hb c).mp (hall c hc), ?_, _, e⟩ hn
      simp; omega
  have h2 := h _ _ (key 1)
  rw [key 0] at h2
  have h3 := congrArg (fun r : R (List FToken) => match r with | .ok (t :: _) => t.text.length | _ => 0) h2
  simp at h3

/-- C78, exactly, for the katakana stem filter: a second application changes nothing exactly if no token is katakana that ends in two marks and has more than `min + 1` characters. -/
theorem c78_stem_exact {block : Char → Option (Nat × Nat)} (hb : KatakanaBlock block) (min : Nat) (tokens out : List FToken)
    (hblock : ∀ t ∈ tokens, ∀ c ∈ t.text, (block c).isSome) (h : katakanaStem block min tokens = .ok out) :
    katakanaStem block min out = .ok out ↔ ∀ t ∈ tokens, ¬ ((∀ c ∈ t.text, 0x30A0 ≤ c.toNat ∧ c.toNat ≤ 0x30FF) ∧ min + 1 < t.text.length ∧
      ∃ stem, t.text = stem ++ ['ー', 'ー']) := by
  obtain ⟨out', ho, hr⟩ := c46_stem_partial hb min tokens hblock
  rw [h] at ho; cases ho
  have hsub : ∀ t' ∈ out, ∀ c ∈ t'.text, (block c).isSome := by
    clear h
    induction hr with
    | nil => simp
    | @cons t t' ts ts' h1 _ ih =>
      intro u hu c hc
      rcases List.mem_cons.mp hu with rfl | hu
      · rcases h1 with ⟨-, -, stem, hs, rfl⟩ | ⟨-, rfl⟩
        · exact hblock t (by simp) c (by rw [hs]; simp [show c ∈ stem from hc])
        · exact hblock _ (by simp) c hc
      · exact ih (fun t ht => hblock t (by simp [ht])) u hu c hc
  obtain ⟨out2, ho2, hr2⟩ := c46_stem_partial hb min out hsub
  rw [ho2]
  simp only [Except.ok.injEq]
  clear h ho2 hsub hblock
  induction hr generalizing out2 with
  | nil => cases hr2; simp
  | @cons t t' ts ts' h1 _ ih =>
    cases hr2 with
    | @cons _ t2 _ ts2 h2 hrest =>
      have key : t2 = t' ↔ ¬ ((∀ c ∈ t.text, 0x30A0 ≤ c.toNat ∧ c.toNat ≤ 0x30FF) ∧ min + 1 < t.text.length ∧ ∃ stem, t.text = stem ++ ['ー', 'ー']) := by
        rcases h1 with ⟨hk, hlen, stem, hs, rfl⟩ | ⟨hn, rfl⟩
        · rcases h2 with ⟨hk2, hlen2, stem2, hs2, rfl⟩ | ⟨hn2, rfl⟩
          · dsimp only at hs2 hlen2
            constructor
            · intro he
              have := congrArg (fun u : FToken => u.text.length) he
              dsimp only at this
              rw [hs2] at this
              simp at this
            · intro hx
              exact absurd ⟨hk, by rw [hs]; simp; omega, stem2, by rw [hs, hs2, List.append_assoc]; rfl⟩ hx
          · refine ⟨fun _ => ?_, fun _ => rfl⟩
            rintro ⟨_, hl3, stem3, hs3⟩
            have e : stem = stem3 ++ ['ー'] := by
              have h4 : stem ++ ['ー'] = (stem3 ++ ['ー']) ++ ['ー'] := by rw [← hs, hs3]; simp
              exact List.append_cancel_right h4
            refine hn2 ⟨fun c hc => hk c (by rw [hs]; simp [show c ∈ stem from hc]), ?_, stem3, e⟩
            show min < stem.length
            rw [hs] at hl3
            simp at hl3
            omega
        · rcases h2 with ⟨hk2, hlen2, stem2, hs2, rfl⟩ | ⟨hn2, rfl⟩
          · exact absurd ⟨hk2, hlen2, stem2, hs2⟩ hn
          · refine ⟨fun _ => ?_, fun _ => rfl⟩
            rintro ⟨hk3, hl3, stem3, hs3⟩
            exact hn ⟨hk3, by omega, stem3 ++ ['ー'], by rw [hs3]; simp⟩
      simp only [List.cons.injEq, List.mem_cons, forall_eq_or_imp, key, ih _ hrest]

/-- Both sides of `c78_stem_exact` can be false and true. -/
example : (do
    let once ← katakanaStem Tf.block 2 [Tf.tok "コーヒー" 0 12 0 ["x"], Tf.tok "アーー" 12 21 1 ["x"]]
    let twice ← katakanaStem Tf.block 2 once
    return (once == twice, once.map (·.text))) = (.ok (true, ["コーヒ".toList, "アー".toList]) : R (Bool × List Str)) ∧
    (do
    let once ← katakanaStem Tf.block 1 [Tf.tok "アーー" 0 9 0 ["x"]]
    let twice ← katakanaStem Tf.block 1 once
    return (once.map (·.text), twice.map (·.text))) = (.ok (["アー".toList], ["ア".toList]) : R (List Str × List Str)) := by decide +kernel

/-- Listing a filter twice in a row in the configuration of an analyzer does the same as listing it once. -/
theorem c78_analyzer (cs : List CharFilter) (tk : Tokenizer) (pre post : List TokenFilter) {f : TokenFilter} (hf : Idempotent f) (text : Str) :
    (⟨cs, tk, pre ++ f :: f :: post⟩ : Analyzer).analyze text = (⟨cs, tk, pre ++ f :: post⟩ : Analyzer).analyze text := by
  have key : ∀ ts, (pre ++ f :: f :: post).foldlM (fun ts (f : TokenFilter) => f ts) ts = (pre ++ f :: post).foldlM (fun ts f => f ts) ts := by
    intro ts
    rw [List.foldlM_append, List.foldlM_append]
    congr 1
    funext ts'
    rw [List.foldlM_cons, List.foldlM_cons]
    cases h : f ts' with
    | error e => rfl
    | ok ts'' => rw [bind_ok, bind_ok, List.foldlM_cons, hf _ _ h, bind_ok]
  unfold Analyzer.analyze Analyzer.tokens
  simp only [key]

/-- Non-vacuity: the filters return, and what they return differs from their input. -/
example : (do
    let f ← CompoundWord.new Tf.all .ipadic ["名詞,固有名詞,地域,一般".toList, "名詞,接尾,地域".toList, "複合名詞".toList] (some "複合名詞".toList)
    let once ← f.apply Tf.tokens
    let twice ← f.apply once
    return (once == twice, once == Tf.tokens)) = (.ok (true, false) : R (Bool × Bool)) ∧
    (do
    let once ← japaneseNumber none [Tf.tok "千二百三万四十" 0 6 0 ["名詞", "数", "*", "*"]]
    let twice ← japaneseNumber none once
    return (once == twice, once.map (·.text))) = (.ok (true, ["12030040".toList]) : R (Bool × List Str)) := by decide +kernel

/-- Non-vacuity of `c78_mapping_partial`: a mapping changes a text, and its output has no key. -/
example : (do
    let f ← Mapping.new Src.yada [("ab".toList, ['x']), (['a'], "yy".toList)]
    return (← f.tokenFilter [Tf.tok "abca" 0 4 0 ["x"]]).map (·.text)) = (.ok ["xcyy".toList] : R (List Str)) ∧
    ¬ "ab".toList <:+: "xcyy".toList ∧ ¬ ['a'] <:+: "xcyy".toList := by decide +kernel

/-! ### C79 Filters that do not depend on each other can be listed in any order -/

/-- C79: two filters that select tokens can be exchanged. -/
theorem c79_select {f g : TokenFilter} (hf : SelectFilter f) (hg : SelectFilter g) : Interchangeable f g := by
  obtain ⟨p, rfl⟩ := hf.eq
  obtain ⟨p', rfl⟩ := hg.eq
  exact retain_comm p p'

/-- C79: a filter that selects by part of speech can be exchanged with every filter that rewrites texts. -/
theorem c79_tags {f g : TokenFilter} (hf : TagFilter f) (hg : TextFilter g) : Interchangeable f g := by
  obtain ⟨p, rfl, hp⟩ := hf.eq
  cases hg <;> exact retain_rewrite_comm hp _

/-- Filters that select by text cannot be exchanged with filters that rewrite texts, nor two filters that rewrite texts, nor a part-of-speech filter with the compound-word filter. -/
theorem c79_fails : ¬ Interchangeable (keepWords ["エキ".toList]) (japaneseReadingForm Tf.all .ipadic) ∧
    ¬ Interchangeable (lengthFilter (some 2) none) (japaneseReadingForm Tf.all .ipadic) ∧
    ¬ Interchangeable (japaneseBaseForm Tf.all .ipadic) (japaneseReadingForm Tf.all .ipadic) ∧
    ∃ c, CompoundWord.new Tf.all .ipadic ["名詞,固有名詞,地域,一般".toList, "名詞,接尾,地域".toList] none = .ok c ∧
      ¬ Interchangeable (japaneseStopTags ["名詞,接尾,地域,*".toList]) c.apply := by
  have run : ∀ (f g : TokenFilter) (ts : List FToken),
      (match f ts, g ts with
        | .ok a, .ok b => match g a, f b with
          | .ok x, .ok y => x != y
          | _, _ => false
        | _, _ => false) = true → ¬ Interchangeable f g := by
    intro f g ts h hc
    cases hf : f ts with
    | error e => simp [hf] at h
    | ok a =>
      cases hg : g ts with
      | error e => simp [hf, hg] at h
      | ok b =>
        obtain ⟨c, h1, h2⟩ := hc ts a b hf hg
        simp [hf, hg, h1, h2] at h
  refine ⟨run _ _ Tf.tokens (by decide +kernel), run _ _ Tf.tokens (by decide +kernel), run _ _ Tf.tokens (by decide +kernel),
    ⟨Tf.all, .ipadic, ["名詞,固有名詞,地域,一般".toList, "名詞,接尾,地域,*".toList], none⟩, ?_, run _ _ Tf.tokens (by decide +kernel)⟩
  unfold CompoundWord.new
  have h1 : formatTags ["名詞,固有名詞,地域,一般".toList, "名詞,接尾,地域".toList] = .ok ["名詞,固有名詞,地域,一般".toList, "名詞,接尾,地域,*".toList] := by decide +kernel
  rw [h1]; rfl

/-- Exchanging two neighbours in the configuration of an analyzer: if the filters are interchangeable, and both accept the tokens that reach them, the analysis is the same. -/
theorem c79_analyzer (cs : List CharFilter) (tk : Tokenizer) (pre post : List TokenFilter) {f g : TokenFilter} (hfg : Interchangeable f g) (text : Str)
    {a b : List FToken} (ha : (⟨cs, tk, pre ++ [f]⟩ : Analyzer).analyze text = .ok a) (hb : (⟨cs, tk, pre ++ [g]⟩ : Analyzer).analyze text = .ok b) :
    (⟨cs, tk, pre ++ f :: g :: post⟩ : Analyzer).analyze text = (⟨cs, tk, pre ++ g :: f :: post⟩ : Analyzer).analyze text := by
  unfold Analyzer.analyze Analyzer.tokens at ha hb ⊢
  dsimp only at ha hb ⊢
  cases hc : cs.foldlM Filtering.step ⟨text, []⟩ with
  | error e => rfl
  | ok st =>
    rw [hc, bind_ok] at ha hb
    rw [bind_ok, bind_ok]
    cases ht : tk.tokenize st.text with
    | error e => rfl
    | ok tmp =>
      rw [ht, bind_ok] at ha hb
      rw [bind_ok, bind_ok]
      cases hm : tmp.mapM (Token.analyzed tk.dictionary tk.userDictionary) with
      | error e => rfl
      | ok ts =>
        rw [hm, bind_ok, List.foldlM_append] at ha hb
        rw [bind_ok, bind_ok, List.foldlM_append, List.foldlM_append]
        cases hp : pre.foldlM (fun ts (f : TokenFilter) => f ts) ts with
        | error e => rfl
        | ok ts' =>
          rw [hp, bind_ok, List.foldlM_cons] at ha hb
          rw [bind_ok, bind_ok, List.foldlM_cons, List.foldlM_cons]
          cases hf : f ts' with
          | error e => rw [hf] at ha; cases ha
          | ok a' =>
            cases hg : g ts' with
            | error e => rw [hg] at hb; cases hb
            | ok b' =>
              obtain ⟨out, h1, h2⟩ := hfg ts' a' b' hf hg
              rw [bind_ok, bind_ok, List.foldlM_cons, List.foldlM_cons, h1, h2]

/-- Non-vacuity: two filters that drop different tokens, and a part-of-speech filter with a reading filter. -/
example : (do
    let a ← stopWords ["駅".toList] (← lengthFilter none (some 1) Tf.tokens)
    let b ← lengthFilter none (some 1) (← stopWords ["駅".toList] Tf.tokens)
    return (a == b, a.map (·.text))) = (.ok (true, [['x']]) : R (Bool × List Str)) ∧
    (do
    let a ← japaneseReadingForm Tf.all .ipadic (← japaneseKeepTags ["助詞,副助詞,*,*".toList] Tf.tokens)
    let b ← japaneseKeepTags ["助詞,副助詞,*,*".toList] (← japaneseReadingForm Tf.all .ipadic Tf.tokens)
    return (a == b, a.map (·.text))) = (.ok (true, ["マデ".toList]) : R (Bool × List Str)) := by decide +kernel

end Verif.Props
