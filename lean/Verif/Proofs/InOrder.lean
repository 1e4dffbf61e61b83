import Verif.Spec.InOrder
import Verif.Proofs.FilterOrder
import Verif.Props.Tokenize
import Verif.Model.AnalyzerConfig
/-! Token filters keep tokens in order. -/
namespace Verif.Model
open Verif.Spec Verif.Props

def Before (a b : FToken) : Prop := a.byteEnd ≤ b.byteStart ∧ a.position + a.positionLength ≤ b.position

def Fine (length : Nat) (t : FToken) : Prop := t.byteStart ≤ t.byteEnd ∧ t.byteEnd ≤ length ∧ 0 < t.positionLength

def Lined (length : Nat) (ts : List FToken) : Prop := (∀ t ∈ ts, Fine length t) ∧ ts.Pairwise Before

theorem inOrder_iff {length : Nat} {ts : List FToken} : InOrder length ts ↔ Lined length ts := by
  constructor
  · intro h
    refine ⟨fun t ht => ⟨(h.range t ht).1, (h.range t ht).2, h.positions t ht⟩, List.pairwise_iff_getElem.mpr fun i j hi hj hij => ?_⟩
    exact h.order i j _ _ hij (List.getElem?_eq_getElem hi) (List.getElem?_eq_getElem hj)
  · intro h
    refine ⟨fun t ht => ⟨(h.1 t ht).1, (h.1 t ht).2.1⟩, fun t ht => (h.1 t ht).2.2, fun i j a b hij ha hb => ?_⟩
    obtain ⟨hi, rfl⟩ := List.getElem?_eq_some_iff.mp ha
    obtain ⟨hj, rfl⟩ := List.getElem?_eq_some_iff.mp hb
    exact List.pairwise_iff_getElem.mp h.2 i j hi hj hij

/-- Tokens with the same ranges and positions. -/
def Alike (t t' : FToken) : Prop := t'.byteStart = t.byteStart ∧ t'.byteEnd = t.byteEnd ∧ t'.position = t.position ∧ t'.positionLength = t.positionLength

theorem Lined.alike {length : Nat} {ts ts' : List FToken} (h : List.Forall₂ Alike ts ts') : Lined length ts → Lined length ts' := by
  have hmem : ∀ {ts ts' : List FToken}, List.Forall₂ Alike ts ts' → ∀ t' ∈ ts', ∃ t ∈ ts, Alike t t' := by
    intro ts ts' h
    induction h with
    | nil => simp
    | cons h1 _ ih =>
      intro t' ht'
      rcases List.mem_cons.mp ht' with rfl | ht'
      · exact ⟨_, List.mem_cons_self, h1⟩
      · obtain ⟨t, ht, he⟩ := ih t' ht'
        exact ⟨t, List.mem_cons_of_mem _ ht, he⟩
  rintro ⟨h1, h2⟩
  refine ⟨fun t' ht' => ?_, ?_⟩
  · obtain ⟨t, ht, e1, e2, e3, e4⟩ := hmem h t' ht'
    unfold Fine
    rw [e1, e2, e4]
    exact h1 t ht
  · clear h1
    induction h with
    | nil => exact .nil
    | cons ha hs ih =>
      rw [List.pairwise_cons] at h2
      refine List.pairwise_cons.mpr ⟨fun b' hb' => ?_, ih h2.2⟩
      obtain ⟨b, hb, e1, e2, e3, e4⟩ := hmem hs b' hb'
      unfold Before
      rw [e1, e3, ha.2.1, ha.2.2.1, ha.2.2.2]
      exact h2.1 b hb

theorem Lined.merge {length : Nat} {xs ys : List FToken} {a b m : FToken} (hm : m.byteStart = a.byteStart ∧ m.byteEnd = b.byteEnd ∧ m.position = a.position ∧
    m.positionLength = a.positionLength + b.positionLength) (h : Lined length (xs ++ a :: b :: ys)) : Lined length (xs ++ m :: ys) := by
  obtain ⟨h1, h2⟩ := h
  obtain ⟨e1, e2, e3, e4⟩ := hm
  rw [List.pairwise_append, List.pairwise_cons, List.pairwise_cons] at h2
  obtain ⟨hx, ⟨ha, hb, hy⟩, hxy⟩ := h2
  have hab := ha b (by simp)
  have fa := h1 a (by simp)
  have fb := h1 b (by simp)
  unfold Fine at fa fb
  unfold Before at hab
  refine ⟨fun t ht => ?_, List.pairwise_append.mpr ⟨hx, List.pairwise_cons.mpr ⟨fun y hy' => ?_, hy⟩, fun x hx' y hy' => ?_⟩⟩
  · rcases List.mem_append.mp ht with ht | ht
    · exact h1 t (by simp [ht])
    · rcases List.mem_cons.mp ht with rfl | ht
      · unfold Fine; omega
      · exact h1 t (by simp [ht])
  · have := hb y hy'
    unfold Before at this ⊢
    omega
  · rcases List.mem_cons.mp hy' with rfl | hy'
    · have := hxy x hx' a (by simp)
      unfold Before at this ⊢
      omega
    · exact hxy x hx' y (by simp [hy'])

theorem CompoundWord.fold_lined (f : CompoundWord) {length : Nat} : ∀ (ts : List FToken) (st st' : List FToken × Option FToken), ts.foldlM f.step st = .ok st' →
    Lined length (st.1 ++ st.2.toList ++ ts) → Lined length (st'.1 ++ st'.2.toList) := by
  intro ts
  induction ts with
  | nil =>
    intro st st' h hl
    cases h
    simpa using hl
  | cons t ts ih =>
    intro st st' h hl
    rw [List.foldlM_cons, bind_eq_ok] at h
    obtain ⟨mid, h1, h2⟩ := h
    refine ih mid st' h2 ?_
    obtain ⟨done, c⟩ := st
    unfold CompoundWord.step at h1
    rw [bind_eq_ok] at h1
    obtain ⟨pos, -, h1⟩ := h1
    unfold CompoundWord.place at h1
    split at h1
    · cases c with
      | none => cases h1; simpa using hl
      | some c =>
        dsimp only at h1
        rw [bind_eq_ok] at h1
        obtain ⟨m, hm, h1⟩ := h1
        cases h1
        unfold CompoundWord.concat at hm
        rw [bind_eq_ok] at hm
        obtain ⟨d, -, hm⟩ := hm
        cases hm
        simp only [Option.toList_some, List.append_assoc, List.singleton_append] at hl ⊢
        exact Lined.merge (a := c) (b := t) ⟨rfl, rfl, rfl, rfl⟩ hl
    · cases c with
      | none => cases h1; simpa using hl
      | some c => cases h1; simpa using hl

theorem CompoundWord.apply_lined (f : CompoundWord) {length : Nat} {ts out : List FToken} (h : f.apply ts = .ok out) (hl : Lined length ts) : Lined length out := by
  unfold CompoundWord.apply at h
  rw [bind_eq_ok] at h
  obtain ⟨st, h1, h2⟩ := h
  have := f.fold_lined ts _ _ h1 (by simpa using hl)
  obtain ⟨done, c⟩ := st
  cases c with
  | none => cases h2; simpa using this
  | some c => cases h2; simpa using this

theorem rewriteText_lined {g : FToken → R Str} {length : Nat} {ts out : List FToken} (h : rewriteText g ts = .ok out) (hl : Lined length ts) : Lined length out := by
  refine Lined.alike ((rewriteText_ok.mp h).imp ?_) hl
  rintro t t' ⟨s, _, rfl⟩
  exact ⟨rfl, rfl, rfl, rfl⟩

theorem retain_lined {p : FToken → R Bool} {length : Nat} {ts out : List FToken} (h : retain p ts = .ok out) (hl : Lined length ts) : Lined length out := by
  obtain ⟨q, -, rfl⟩ := retain_ok_iff.mp h
  exact ⟨fun t ht => hl.1 t (List.mem_filter.mp ht).1, hl.2.filter _⟩

theorem setting_lined {env : FilterEnv} {s : TokenFilterSetting} {f : TokenFilter} (hf : s.new env = .ok f) {length : Nat} {ts out : List FToken} (h : f ts = .ok out)
    (hl : Lined length ts) : Lined length out := by
  cases s with
  | japaneseCompoundWord kind tags newTag =>
    unfold TokenFilterSetting.new at hf
    rw [bind_eq_ok] at hf
    obtain ⟨g, -, hf⟩ := hf
    cases hf
    exact g.apply_lined h hl
  | japaneseKeepTags tags =>
    unfold TokenFilterSetting.new at hf
    rw [bind_eq_ok] at hf
    obtain ⟨g, -, hf⟩ := hf
    cases hf
    exact retain_lined h hl
  | japaneseStopTags tags =>
    unfold TokenFilterSetting.new at hf
    rw [bind_eq_ok] at hf
    obtain ⟨g, -, hf⟩ := hf
    cases hf
    exact retain_lined h hl
  | japaneseNumber tags =>
    unfold TokenFilterSetting.new at hf
    rw [bind_eq_ok] at hf
    obtain ⟨g, -, hf⟩ := hf
    cases hf
    exact rewriteText_lined h hl
  | mapping m =>
    unfold TokenFilterSetting.new at hf
    rw [bind_eq_ok] at hf
    obtain ⟨g, -, hf⟩ := hf
    cases hf
    exact rewriteText_lined h hl
  | keepWords _ => cases hf; exact retain_lined h hl
  | stopWords _ => cases hf; exact retain_lined h hl
  | koreanKeepTags _ => cases hf; exact retain_lined h hl
  | koreanStopTags _ => cases hf; exact retain_lined h hl
  | length _ _ => cases hf; exact retain_lined h hl
  | japaneseBaseForm _ => cases hf; exact rewriteText_lined h hl
  | japaneseReadingForm _ => cases hf; exact rewriteText_lined h hl
  | koreanReadingForm => cases hf; exact rewriteText_lined h hl
  | japaneseKana _ => cases hf; exact rewriteText_lined h hl
  | japaneseKatakanaStem _ => cases hf; exact rewriteText_lined h hl
  | lowercase => cases hf; exact rewriteText_lined h hl
  | uppercase => cases hf; exact rewriteText_lined h hl

theorem filters_lined {length : Nat} : ∀ (fs : List TokenFilter), (∀ f ∈ fs, ∃ env s, TokenFilterSetting.new env s = .ok f) → ∀ (ts out : List FToken),
    fs.foldlM (fun ts f => f ts) ts = .ok out → Lined length ts → Lined length out := by
  intro fs
  induction fs with
  | nil => intro _ ts out h hl; cases h; exact hl
  | cons f fs ih =>
    intro hs ts out h hl
    rw [List.foldlM_cons, bind_eq_ok] at h
    obtain ⟨mid, h1, h2⟩ := h
    obtain ⟨env, s, hf⟩ := hs f (by simp)
    exact ih (fun g hg => hs g (by simp [hg])) mid out h2 (setting_lined hf h1 hl)

theorem surfaces_le {env : LatticeEnv} {m : ConnMatrix} {ss : List Str} {segs : List (List Word)} (h : List.Forall₂ (SentenceResult env m) ss segs) :
    blen (surfaces segs.flatten) ≤ blen ss.flatten := by
  induction h with
  | nil => simp [surfaces]
  | @cons s ws ss segs h1 _ ih =>
    have : blen (surfaces ws) ≤ blen s := by
      rcases h1 with h1 | ⟨-, rfl, -⟩
      · have := (segs_surfaces (.cons h1 .nil)).1
        simp only [List.flatten_cons, List.flatten_nil, List.append_nil] at this
        rw [this]
      · simp [surfaces]
    rw [List.flatten_cons, List.flatten_cons, blen_append, surfaces_append, blen_append]
    omega

/-- The tokens of a tokenizer, in the form in which the filters get them. -/
theorem analyzed_lined {t : Tokenizer} {text : Str} {toks : List Token} (h : t.tokenize text = .ok toks) {fts : List FToken}
    (hf : toks.mapM (Token.analyzed t.dictionary t.userDictionary) = .ok fts) : Lined (blen text) fts := by
  obtain ⟨segs, hs, rfl⟩ := tokenize_spec h
  have hle := surfaces_le hs
  rw [splitInclusive_flatten] at hle
  rw [mapM_ok_iff] at hf
  clear h hs
  have key : ∀ (ws : List Word) (b p : Nat) (fts : List FToken), List.Forall₂ (fun a c => Token.analyzed t.dictionary t.userDictionary a = .ok c) (tokensFor b p ws) fts →
      b + blen (surfaces ws) ≤ blen text → Lined (blen text) fts ∧ ∀ f ∈ fts, b ≤ f.byteStart ∧ p ≤ f.position := by
    intro ws
    induction ws with
    | nil =>
      intro b p fts h _
      cases h
      exact ⟨⟨by simp, .nil⟩, by simp⟩
    | cons w ws ih =>
      intro b p fts h hb
      rw [tokensFor] at h
      cases h with
      | cons h1 h2 =>
        rename_i c fts
        rw [show w :: ws = [w] ++ ws from rfl, surfaces_append, blen_append] at hb
        have hw : blen (surfaces [w]) = blen w.surface := by simp [surfaces]
        rw [hw] at hb
        obtain ⟨hl, hge⟩ := ih _ _ _ h2 (by omega)
        have hc : c.byteStart = b ∧ c.byteEnd = b + blen w.surface ∧ c.position = p ∧ c.positionLength = 1 := by
          unfold Token.analyzed at h1
          rw [bind_eq_ok] at h1
          obtain ⟨⟨d, tok'⟩, -, h1⟩ := h1
          dsimp only at h1
          split at h1
          · cases h1; exact ⟨rfl, rfl, rfl, rfl⟩
          · cases h1
        refine ⟨⟨fun f hf => ?_, List.pairwise_cons.mpr ⟨fun f hf => ?_, hl.2⟩⟩, fun f hf => ?_⟩
        · rcases List.mem_cons.mp hf with rfl | hf
          · unfold Fine; omega
          · exact hl.1 f hf
        · have := hge f hf
          unfold Before; omega
        · rcases List.mem_cons.mp hf with rfl | hf
          · omega
          · have := hge f hf; omega
  exact (key _ 0 0 fts hf (by omega)).1

end Verif.Model
