import Verif.Proofs.Exact
import Verif.Props.TokenFilter
import Verif.Props.UserDict
import Verif.Props.CharFilter
import Verif.Props.Lattice
/-! Exact conditions: when the token filters return (C40, C42, C46, C55), when a user dictionary panics (C29), when byte offsets are right (C15, C37). -/
namespace Verif.Props
open Verif.Model Verif.Spec

/-! ### C40, C42 -/

/-- C40: the construction of the filters returns exactly if all tags have at most four parts, and panics otherwise. -/
theorem c40_new_exact (tags : List Str) : ReturnsIff (formatTags tags) (∀ tag ∈ tags, tag.count ',' ≤ 3) := ReturnsIff.mapM fun tag _ => formatTag_returns tag

/-- C40: the filters return exactly if all tokens have details, and panic otherwise. -/
theorem c40_apply_exact (tags : List Str) (tokens : List FToken) :
    ReturnsIff (japaneseKeepTags tags tokens) (∀ t ∈ tokens, t.details ≠ []) ∧ ReturnsIff (japaneseStopTags tags tokens) (∀ t ∈ tokens, t.details ≠ []) ∧
    ReturnsIff (koreanKeepTags tags tokens) (∀ t ∈ tokens, t.details ≠ []) ∧ ReturnsIff (koreanStopTags tags tokens) (∀ t ∈ tokens, t.details ≠ []) := by
  have hk : ∀ t : FToken, ReturnsIff (orPanic t.details[0]?) (t.details ≠ []) := by
    intro t
    refine (orPanic_returns _).congr ?_
    cases t.details <;> simp
  exact ⟨.retain fun t _ => (tag_returns t).map, .retain fun t _ => (tag_returns t).map, .retain fun t _ => (hk t).map, .retain fun t _ => (hk t).map⟩

/-- C42: the construction of the filter returns exactly if all tags and the new tag have at most four parts, and panics otherwise. -/
theorem c42_new_exact (features : Features) (kind : DictionaryKind) (tags : List Str) (newTag : Option Str) :
    ReturnsIff (CompoundWord.new features kind tags newTag) ((∀ tag ∈ tags, tag.count ',' ≤ 3) ∧ ∀ tag, newTag = some tag → tag.count ',' ≤ 3) := by
  unfold CompoundWord.new
  refine (c40_new_exact tags).bind fun ft _ => ReturnsIff.map ?_
  cases newTag with
  | none => exact .ok (by simp)
  | some tag => exact (formatTag_returns tag).map.congr (by simp)

/-- C42: the filter returns exactly if all tokens have details, and panics otherwise. -/
theorem c42_apply_exact (features : Features) (kind : DictionaryKind) (tags : List Str) (newTag : Option Str) (f : CompoundWord)
    (hf : CompoundWord.new features kind tags newTag = .ok f) (tokens : List FToken) : ReturnsIff (f.apply tokens) (∀ t ∈ tokens, t.details ≠ []) := by
  obtain ⟨ds, hds, -⟩ := compound_details hf
  unfold CompoundWord.apply
  have hplace : ∀ st t b, ∃ st', f.place st t b = .ok st' := by
    rintro ⟨done, o⟩ t b
    unfold CompoundWord.place CompoundWord.concat
    rw [hds]
    cases b <;> cases o <;> exact ⟨_, rfl⟩
  have key : ∀ (ts : List FToken) st, ReturnsIff (ts.foldlM f.step st) (∀ t ∈ ts, t.details ≠ []) := by
    intro ts
    induction ts with
    | nil => intro st; exact .ok (by simp)
    | cons t ts ih =>
      intro st
      rw [List.foldlM_cons]
      have hstep : ReturnsIff (f.step st t) (t.details ≠ []) := by
        unfold CompoundWord.step
        refine ((tag_returns t).bind (d := True) fun pos _ => ?_).congr (by simp)
        obtain ⟨st', h⟩ := hplace st t (f.tags.contains pos)
        rw [h]
        exact .ok trivial
      exact (hstep.bind fun st' _ => ih st').congr (by simp)
  exact (key tokens _).map

example : ReturnsIff (formatTags ["名詞,接尾,地域".toList, "UNK".toList]) True ∧ ReturnsIff (formatTags ["UNK".toList, "名詞,固有名詞,人名,姓,*".toList]) False :=
  ⟨(c40_new_exact _).congr ⟨fun _ => trivial, fun _ => by decide +kernel⟩, (c40_new_exact _).congr ⟨fun h => absurd (h "名詞,固有名詞,人名,姓,*".toList (List.mem_cons_of_mem _ (List.mem_singleton.mpr rfl))) (by decide +kernel), False.elim⟩⟩

/-! ### C46 -/

/-- C46: the filter returns exactly if in no token a character that is in no Unicode block comes after nothing but katakana, and panics otherwise. -/
theorem c46_exact (block : Char → Option (Nat × Nat)) (min : Nat) (tokens : List FToken) : ReturnsIff (katakanaStem block min tokens)
    (∀ t ∈ tokens, ∀ p c q, t.text = p ++ c :: q → (∀ d ∈ p, block d = some (0x30A0, 0x30FF)) → block c ≠ none) := by
  refine .rewriteText fun t _ => ?_
  unfold stemText
  refine ((isKatakana_returns block t.text).bind (d := True) fun b _ => ?_).congr (by simp)
  split
  · exact .ok trivial
  · split
    · rename_i h
      rw [takeBytes_dropLast h.1]
      exact .ok trivial
    · exact .ok trivial

/-! ### C55 -/

/-- C55: the filter returns exactly if every token is an unknown word or has the column, and panics otherwise. -/
theorem c55_exact {f : TokenFilter} {i : Nat} (hf : FormColumn f i) (tokens : List FToken) :
    ReturnsIff (f tokens) (∀ t ∈ tokens, t.details.head? = some "UNK".toList ∨ i < t.details.length) := by
  rw [hf.eq]
  refine .rewriteText fun t _ => ?_
  unfold formText
  rw [← List.head?_eq_getElem?]
  cases hd : t.details.head? with
  | none =>
    have : t.details = [] := by simpa using hd
    rw [this]
    exact .inr ⟨by simp, rfl⟩
  | some x =>
    rw [orPanic_some, bind_ok]
    by_cases hx : x = "UNK".toList
    · rw [if_pos hx]
      exact .ok (.inl (by rw [hx]))
    · rw [if_neg hx]
      dsimp only
      refine (orPanic_returns _).congr ?_
      rw [ne_eq, List.getElem?_eq_none_iff, not_le]
      constructor
      · exact .inr
      · rintro (h | h)
        · exact absurd (Option.some.inj h) hx
        · exact h


/-! ### C37 -/

/-- C37, exactly: every character keeps its length if and only if all repeated characters are three bytes long in UTF-8. -/
theorem c37_exact (f : IterationMark) (text : Str) :
    KeepsLengths f text ↔ ∀ s k j c, MarkGroup f text s k → j < k → text[s + j - min s k]? = some c → c.utf8Size = 3 := by
  refine ⟨?_, c37_three_bytes_partial f text⟩
  rintro ⟨out, h1, h2⟩ s k j c hg hj hc
  obtain ⟨out', h1', -, h3⟩ := iterationMark_apply f text
  rw [h1] at h1'
  cases h1'
  obtain ⟨m, hm, hmark⟩ := hg.inside j hj
  obtain ⟨hlt, hm'⟩ := List.getElem?_eq_some_iff.mp hm
  have h4 := (h3 _ hlt).2 s k m c hg (by omega) (by omega) hm hc
  obtain ⟨hlt', h4'⟩ := List.getElem?_eq_some_iff.mp h4
  have h5 := (List.forall₂_iff_get.mp h2).2 (s + j) hlt hlt'
  simp only [List.get_eq_getElem, hm', h4', utf8Size_repeated] at h5
  rw [← h5]
  rcases hmark with ⟨_, h⟩ | ⟨_, h⟩
  · rw [h]; decide
  · simp only [List.mem_cons, List.not_mem_nil, or_false] at h
    rcases h with h | h | h | h <;> rw [h] <;> decide

/-- `時々` keeps its lengths, `é々` and `𠮷々` do not. -/
example : KeepsLengths ⟨true, true⟩ ['時', '々'] ∧ ¬ KeepsLengths ⟨true, true⟩ ['é', '々'] ∧ ¬ KeepsLengths ⟨true, true⟩ ['𠮷', '々'] := by
  have key : ∀ c : Char, MarkGroup ⟨true, true⟩ [c, '々'] 1 1 ∨ IsMark ⟨true, true⟩ c := by
    intro c
    by_cases h : IsMark ⟨true, true⟩ c
    · exact .inr h
    · left
      refine ⟨by decide, ?_, ?_, by simp⟩
      · intro j hj
        obtain rfl : j = 0 := by omega
        exact ⟨'々', rfl, by decide⟩
      · intro d _ hd
        simp at hd
        rwa [← hd]
  refine ⟨(c37_exact _ _).mpr ?_, ?_, ?_⟩
  · intro s k j c _ _ hc
    have : c ∈ ['時', '々'] := List.mem_of_getElem? hc
    simp only [List.mem_cons, List.not_mem_nil, or_false] at this
    rcases this with rfl | rfl <;> decide
  · intro h
    rcases key 'é' with hg | hg
    · exact absurd ((c37_exact _ _).mp h 1 1 0 'é' hg (by decide) rfl) (by decide)
    · exact absurd hg (by decide)
  · intro h
    rcases key '𠮷' with hg | hg
    · exact absurd ((c37_exact _ _).mp h 1 1 0 '𠮷' hg (by decide) rfl) (by decide)
    · exact absurd hg (by decide)

/-! ### C15 -/

/-- The number of bytes in the sentences of a list that have no segmentation. -/
noncomputable def droppedBytes (env : LatticeEnv) (ss : List Str) : Nat :=
  open Classical in blen (ss.filter fun s => ¬ ∃ vs, Segmentation env s vs).flatten

/-- C15, exactly: every token lies in a sentence that has a segmentation, and its byte offsets are too small by the total length of the sentences before it that have none. -/
theorem c15_shift {t : Tokenizer} {text : Str} {toks : List Token} (h : t.tokenize text = .ok toks) {ss : List Str} (hss : Sentences text ss) :
    ∀ tok ∈ toks, ∃ before s after, ss = before ++ s :: after ∧ (∃ vs, Segmentation t.env s vs) ∧
      sliceBytes text (tok.byteStart + droppedBytes t.env before) (tok.byteEnd + droppedBytes t.env before) = some tok.text ∧
      blen before.flatten ≤ tok.byteStart + droppedBytes t.env before ∧ tok.byteEnd + droppedBytes t.env before ≤ blen before.flatten + blen s := by
  classical
  obtain ⟨segs, hf, rfl⟩ := tokenize_spec h
  have htext : ss.flatten = text := by rw [← sentences_split hss, splitInclusive_flatten]
  rw [sentences_split hss] at hf
  clear h hss
  subst htext
  have key : ∀ (done : List Str) (b p : Nat), b + droppedBytes t.env done = blen done.flatten →
      ∀ tok ∈ tokensFor b p segs.flatten, ∃ before s after, done ++ ss = before ++ s :: after ∧ (∃ vs, Segmentation t.env s vs) ∧
      sliceBytes (done ++ ss).flatten (tok.byteStart + droppedBytes t.env before) (tok.byteEnd + droppedBytes t.env before) = some tok.text ∧
      blen before.flatten ≤ tok.byteStart + droppedBytes t.env before ∧ tok.byteEnd + droppedBytes t.env before ≤ blen before.flatten + blen s := by
    induction hf with
    | nil => intro done b p _ tok htok; simp [tokensFor] at htok
    | @cons s ws ss segs hr _ ih =>
      intro done b p hb tok htok
      have hsplit : done ++ s :: ss = (done ++ [s]) ++ ss := by simp
      rw [List.flatten_cons, tokensFor_append, List.mem_append] at htok
      rcases hr with ⟨hseg, _⟩ | ⟨hno, hnil, _⟩
      · have hs : surfaces ws = s := (segmentation_iff.mp hseg).surfaces_eq
        rcases htok with htok | htok
        · obtain ⟨i, hi⟩ := List.getElem?_of_mem htok
          obtain ⟨a, w, c, hws, _, h1, h2, h3, _⟩ := tokensFor_get hi
          have hs' : s = surfaces a ++ w.surface ++ surfaces c := by rw [← hs, hws]; simp
          have hlen : blen s = blen (surfaces a) + blen w.surface + blen (surfaces c) := by rw [hs', blen_append, blen_append]
          refine ⟨done, s, ss, rfl, ⟨_, hseg⟩, ?_, by omega, by omega⟩
          rw [h1, show tok.byteStart + droppedBytes t.env done = blen (done.flatten ++ surfaces a) by rw [blen_append]; omega,
            show tok.byteEnd + droppedBytes t.env done = blen (done.flatten ++ surfaces a) + blen w.surface by rw [blen_append]; omega,
            show (done ++ s :: ss).flatten = (done.flatten ++ surfaces a) ++ w.surface ++ (surfaces c ++ ss.flatten) by simp [hs']]
          exact sliceBytes_append _ _ _
        · rw [hsplit]
          refine ih (done ++ [s]) _ _ ?_ tok htok
          have : droppedBytes t.env (done ++ [s]) = droppedBytes t.env done := by
            have hd : ¬ ¬ ∃ vs, Segmentation t.env s vs := not_not.mpr ⟨_, hseg⟩
            simp only [droppedBytes, List.filter_append, List.filter_cons, decide_eq_true_eq, if_neg hd, List.filter_nil, List.append_nil]
          rw [this, hs, List.flatten_append, blen_append, List.flatten_singleton]
          omega
      · rw [hnil] at htok
        rcases htok with htok | htok
        · simp [tokensFor] at htok
        · rw [hsplit]
          refine ih (done ++ [s]) _ _ ?_ tok htok
          have : droppedBytes t.env (done ++ [s]) = droppedBytes t.env done + blen s := by
            simp only [droppedBytes, List.filter_append, List.filter_cons, decide_eq_true_eq, if_pos hno, List.filter_nil, List.flatten_append, blen_append, List.flatten_singleton]
          rw [this, surfaces_nil, List.flatten_append, blen_append, List.flatten_singleton]
          have : blen ([] : Str) = 0 := rfl
          omega
  exact key [] 0 0 (by simp [droppedBytes])

/-- The tokenizer of `c15_offsets_after_dropped_fails`: in `z。a` the token `a` is at 4, the sentence `z。` before it is four bytes long. -/
example : noUnk.tokenize ['z', '。', 'a'] = .ok [⟨['a'], 0, 1, 0, 1, ⟨0, true⟩, none⟩] ∧ Sentences ['z', '。', 'a'] [['z', '。'], ['a']] := by
  refine ⟨by decide +kernel, Sentences.cons (s := ['z']) (by decide) (by decide) (.last (by simp) (by decide))⟩

/-! ### C29 -/

/-- C29: a build that succeeds has read every row. -/
theorem c29_accepted (yada : DaBuilder) (kind : DictionaryKind) (rows : List Row) (u : UserDictionary) (h : buildUserDict yada (UserCfg.ofKind kind) rows = .ok u) :
    ∀ row ∈ rows, (readUserRow kind row).isSome := by
  unfold buildUserDict at h
  rw [bind_eq_ok] at h
  obtain ⟨rows', hr, h⟩ := h
  obtain rfl : rows' = rows := by
    unfold UserCfg.readRows at hr
    split at hr
    · simpa using hr.symm
    · split at hr
      · simpa using hr.symm
      · simp at hr
  dsimp only at h
  rw [bind_eq_ok] at h
  obtain ⟨m, hm, h⟩ := h
  rw [bind_eq_ok] at h
  obtain ⟨d, hd, -⟩ := h
  have hmem : ∀ r, r ∈ sortByKey Row.first rows' ↔ r ∈ rows' := fun r => (sortByKey_perm Row.first rows').mem_iff
  have all : ∀ {σ α : Type} {f : σ → α → R σ} (xs : List α) (s s' : σ), xs.foldlM f s = .ok s' → ∀ x ∈ xs, ∃ s, ∃ s', f s x = .ok s' := by
    intro σ α f xs
    induction xs with
    | nil => simp
    | cons y ys ih =>
      intro s s' h x hx
      rw [List.foldlM_cons, bind_eq_ok] at h
      obtain ⟨s1, h1, h2⟩ := h
      rcases List.mem_cons.mp hx with rfl | hx
      · exact ⟨s, s1, h1⟩
      · exact ih _ _ h2 x hx
  intro row hrow
  have hin := (hmem row).mpr hrow
  obtain ⟨i, hi, he⟩ := List.mem_iff_getElem.mp hin
  obtain ⟨s, s', h1⟩ := all _ _ _ hm (row, i) (by rw [List.mem_zipIdx_iff_getElem?, List.getElem?_eq_getElem hi]; simp [he])
  obtain ⟨t, t', h2⟩ := all _ _ _ hd row hin
  dsimp only at h1
  rw [bind_eq_ok] at h1
  obtain ⟨n, h1, -⟩ := h1
  unfold UserCfg.pushDetails at h2
  rw [bind_eq_ok] at h2
  obtain ⟨ds, h2, -⟩ := h2
  exact readable_of_ok ⟨n, h1⟩ ⟨ds, h2⟩

/-- C29: if all numbers can be read, the build panics exactly if some row has one or two columns and the rows are not rejected for differing in their number of columns. -/
theorem c29_panics_exact (yada : DaBuilder) (kind : DictionaryKind) (rows : List Row)
    (hnum : ∀ row ∈ rows, ∀ surface left right cost details, row.fields = surface :: left :: right :: cost :: details →
      (parseU16 left).isSome ∧ (parseU16 right).isSome ∧ (parseI16 cost).isSome) :
    buildUserDict yada (UserCfg.ofKind kind) rows = .error .panic ↔ SameColumns kind rows ∧ ∃ row ∈ rows, row.fields.length < 3 := by
  have hnumbers : ∀ row ∈ rows, (3 ≤ row.fields.length ∧ ∃ n, (UserCfg.ofKind kind).numbers row = .ok n) ∨
      (row.fields.length < 3 ∧ (UserCfg.ofKind kind).numbers row = .error .panic) := by
    intro row hrow
    by_cases h3 : row.fields.length < 3
    · right
      refine ⟨h3, ?_⟩
      unfold UserCfg.numbers
      rw [if_neg (by simp only [UserCfg.ofKind]; omega), List.getElem?_eq_none (by omega)]
      rfl
    · left
      refine ⟨by omega, ?_⟩
      have h := hnum row hrow
      have h3 : 3 ≤ row.fields.length := by omega
      clear hrow
      obtain ⟨a, rest⟩ := row
      match rest, h3, h with
      | [pos, reading], _, _ => exact ⟨_, rfl⟩
      | left :: right :: cost :: details, _, h =>
        obtain ⟨hl, hr, hc⟩ := h a left right cost details rfl
        obtain ⟨l, hl⟩ := Option.isSome_iff_exists.mp hl
        obtain ⟨r, hr⟩ := Option.isSome_iff_exists.mp hr
        obtain ⟨c, hc⟩ := Option.isSome_iff_exists.mp hc
        unfold UserCfg.numbers
        rw [if_neg (by simp [Row.fields, UserCfg.ofKind])]
        simp only [Row.fields, List.getElem?_cons_succ, List.getElem?_cons_zero, orPanic_some, bind_ok, hc, hl, hr, orParse]
        exact ⟨_, rfl⟩
  have hread : (SameColumns kind rows ∧ (UserCfg.ofKind kind).readRows rows = .ok rows) ∨
      (¬ SameColumns kind rows ∧ (UserCfg.ofKind kind).readRows rows = .error (.err .content)) := by
    unfold UserCfg.readRows SameColumns
    cases rows with
    | nil => exact .inl ⟨.inr (.inr (by simp)), rfl⟩
    | cons r rs =>
      dsimp only
      split
      · rename_i hc
        left
        refine ⟨?_, rfl⟩
        rw [Bool.or_eq_true, List.all_eq_true] at hc
        rcases hc with hc | hc
        · cases kind <;> simp_all [UserCfg.ofKind]
        · right; right
          have : ∀ x ∈ r :: rs, x.fields.length = r.fields.length := by
            intro x hx
            rcases List.mem_cons.mp hx with rfl | hx
            · rfl
            · simpa using hc x hx
          intro x hx y hy
          rw [this x hx, this y hy]
      · rename_i hc
        right
        refine ⟨?_, rfl⟩
        rintro (h | h | h)
        · exact hc (by rw [h]; rfl)
        · exact hc (by rw [h]; rfl)
        · apply hc
          rw [Bool.or_eq_true, List.all_eq_true]
          right
          intro x hx
          simp [h x (by simp [hx]) r (by simp)]
  unfold buildUserDict
  rcases hread with ⟨hsame, hread⟩ | ⟨hsame, hread⟩
  · rw [hread, bind_ok]
    dsimp only
    simp only [hsame, true_and]
    have hmem : ∀ r, r ∈ sortByKey Row.first rows ↔ r ∈ rows := fun r => (sortByKey_perm Row.first rows).mem_iff
    have hfold := foldlM_error (e := .panic) (xs := (sortByKey Row.first rows).zipIdx) (f := fun m (p : Row × Nat) => (do
        let (cost, left, right) ← (UserCfg.ofKind kind).numbers p.1
        return mapPush p.1.first ⟨⟨UInt32.ofNat p.2, false⟩, cost, left, right⟩ m : R EntryMap)) (by
        intro p hp m
        rcases hnumbers p.1 ((hmem _).mp (List.fst_mem_of_mem_zipIdx hp)) with ⟨_, n, hn⟩ | ⟨_, hn⟩
        · left; rw [hn]; exact ⟨_, rfl⟩
        · right; rw [hn]; rfl) []
    rcases hfold with ⟨⟨m, hm⟩, hall⟩ | hm
    · have hm : (UserCfg.ofKind kind).entryMap (sortByKey Row.first rows) = .ok m := hm
      rw [hm, bind_ok]
      constructor
      · intro h
        exfalso
        rcases foldlM_error (e := .err .content) (xs := sortByKey Row.first rows) (f := (UserCfg.ofKind kind).pushDetails) (by
          intro r hr st
          unfold UserCfg.pushDetails
          rcases rowDetails_cases (kind := kind) (row := r) with ⟨d, hd⟩ | hd
          · left; rw [hd]; exact ⟨_, rfl⟩
          · right; rw [hd]; rfl) ([], []) with ⟨⟨d, hd⟩, -⟩ | hd
        · rw [hd, bind_ok] at h
          split at h <;> simp at h
        · rw [hd] at h
          simp at h
      · rintro ⟨row, hrow, hshort⟩
        exfalso
        obtain ⟨i, hi, he⟩ := List.mem_iff_getElem.mp ((hmem row).mpr hrow)
        obtain ⟨s, s', h1⟩ := hall (row, i) (by rw [List.mem_zipIdx_iff_getElem?, List.getElem?_eq_getElem hi]; simp [he])
        dsimp only at h1
        rcases hnumbers row hrow with ⟨h, _⟩ | ⟨_, h⟩
        · omega
        · rw [h] at h1
          simp at h1
    · have hm' : (UserCfg.ofKind kind).entryMap (sortByKey Row.first rows) = .error .panic := hm
      rw [hm']
      refine ⟨fun _ => ?_, fun _ => rfl⟩
      by_contra hno
      have hok : ∃ m, (UserCfg.ofKind kind).entryMap (sortByKey Row.first rows) = .ok m := by
        obtain ⟨m, h, -⟩ := foldlM_total (f := fun m (p : Row × Nat) => (do
          let (cost, left, right) ← (UserCfg.ofKind kind).numbers p.1
          return mapPush p.1.first ⟨⟨UInt32.ofNat p.2, false⟩, cost, left, right⟩ m : R EntryMap)) (fun ps _ => ∀ p ∈ ps, p.1 ∈ rows) (by
            intro p ps m hps
            rcases hnumbers p.1 (hps p (by simp)) with ⟨_, n, hn⟩ | ⟨h3, _⟩
            · rw [hn]; exact ⟨_, rfl, fun q hq => hps q (by simp [hq])⟩
            · exact absurd ⟨p.1, hps p (by simp), h3⟩ hno) (sortByKey Row.first rows).zipIdx [] (fun p hp => (hmem _).mp (List.fst_mem_of_mem_zipIdx hp))
        exact ⟨m, h⟩
      obtain ⟨m, hok⟩ := hok
      rw [hok] at hm'
      simp at hm'
  · rw [hread]
    simp [hsame]

/-- A short row among good ones makes an IPADIC build panic; in a UniDic dictionary it is reported. -/
example : buildUserDict Src.yada (UserCfg.ofKind .ipadic) [Usr.simple, ⟨['a'], [['x']]⟩] = .error .panic ∧
    buildUserDict Src.yada (UserCfg.ofKind .unidic) [Usr.simple, ⟨['a'], [['x']]⟩] = .error (.err .content) := ⟨by decide +kernel, by decide +kernel⟩

end Verif.Props
