import Verif.Props.CharFilter
/-! C35, the exact condition: which corrected byte ranges are valid slices of the original text. -/
namespace Verif.Props
open Verif.Model Verif.Spec

/-- Offset `o` of the filtered text lies inside the replacement of the piece `p`, `k` bytes after its start. -/
def InsideReplacement (ps : List Piece) (o : Nat) (p : Piece) (k : Nat) : Prop :=
  ∃ pre post, ps = pre ++ p :: post ∧ o = blen (target pre) + k ∧ 0 < k ∧ k < blen p.dst

/-- Offset `o` of the filtered text is a boundary between pieces, or it lies `k` bytes inside a replacement and the replaced piece has a character boundary at byte `k`
(at its last byte, if it is not longer than `k`). -/
def Clean (ps : List Piece) (o : Nat) : Prop :=
  (∃ i, Boundary ps o i) ∨ ∃ p k, InsideReplacement ps o p k ∧ OnBoundary p.src (min k (blen p.src - 1))

private theorem onBoundary_left {a b : Str} {n : Nat} (hn : n ≤ blen a) : OnBoundary (a ++ b) n ↔ OnBoundary a n := by
  constructor
  · rintro ⟨x, y, h, rfl⟩
    rcases List.append_eq_append_iff.mp h with ⟨r, h1, h2⟩ | ⟨r, h1, h2⟩
    · have : blen x = blen a + blen r := by rw [h1, blen_append]
      have : r = [] := blen_eq_zero.mp (by omega)
      subst this
      exact ⟨a, [], by simp, by rw [h1, List.append_nil]⟩
    · exact ⟨x, r, h1, rfl⟩
  · rintro ⟨x, y, rfl, rfl⟩
    exact ⟨x, y ++ b, by simp, rfl⟩

private theorem onBoundary_right {a b : Str} {n : Nat} : OnBoundary (a ++ b) (blen a + n) ↔ OnBoundary b n := by
  constructor
  · rintro ⟨x, y, h, hn⟩
    rcases List.append_eq_append_iff.mp h with ⟨r, h1, h2⟩ | ⟨r, h1, h2⟩
    · refine ⟨r, y, h2, ?_⟩
      rw [h1, blen_append] at hn
      omega
    · rw [h1, blen_append] at hn
      have : r = [] := blen_eq_zero.mp (by omega)
      subst this
      exact ⟨[], b, rfl, by rw [blen_nil] at hn ⊢; omega⟩
  · rintro ⟨x, y, rfl, rfl⟩
    exact ⟨a ++ x, y, by simp, by rw [blen_append]⟩

private theorem source_cons (p : Piece) (ps : List Piece) : source (p :: ps) = p.src ++ source ps := by simp [source]
private theorem target_cons (p : Piece) (ps : List Piece) : target (p :: ps) = p.dst ++ target ps := by simp [target]

/-- One filter: the offset it comes from is on a character boundary of the original text exactly if it is clean. -/
theorem clean_iff : ∀ {ps : List Piece}, (∀ p ∈ ps, p.src ≠ []) → ∀ {o : Nat}, o ≤ blen (target ps) → (OnBoundary (source ps) (sourceOffset ps o) ↔ Clean ps o)
  | [], _, o, ho => by
    have : o = 0 := by simpa [target] using ho
    subst this
    exact ⟨fun _ => .inl ⟨0, [], [], rfl, rfl, rfl, by simp⟩, fun _ => ⟨[], [], rfl, rfl⟩⟩
  | p :: ps, hne, o, ho => by
    have hp : 0 < blen p.src := Nat.pos_of_ne_zero fun h => hne p (by simp) (blen_eq_zero.mp h)
    rw [target_cons, blen_append] at ho
    simp only [sourceOffset]
    rw [source_cons]
    split
    · rename_i hlt
      rw [onBoundary_left (by omega)]
      by_cases h0 : o = 0
      · subst h0
        refine ⟨fun _ => .inl ⟨0, [], p :: ps, rfl, rfl, rfl, ?_⟩, fun _ => ⟨[], p.src, rfl, by simp⟩⟩
        intro q hq
        simp only [List.head?_cons, Option.some.injEq] at hq
        subst hq
        intro h
        rw [h] at hlt
        exact absurd hlt (by simp)
      · constructor
        · intro h
          exact .inr ⟨p, o, ⟨[], ps, rfl, by simp [target], by omega, hlt⟩, h⟩
        · rintro (⟨i, pre, post, he, h1, -, -⟩ | ⟨q, k, ⟨pre, post, he, h1, h2, h3⟩, hb⟩)
          · cases pre with
            | nil => exact absurd h1 (by simpa [target] using h0)
            | cons x pre =>
              simp only [List.cons_append, List.cons.injEq] at he
              rw [← he.1, target_cons, blen_append] at h1
              omega
          · cases pre with
            | nil =>
              simp only [List.nil_append, List.cons.injEq] at he
              obtain ⟨rfl, rfl⟩ := he
              have : o = k := by simpa [target] using h1
              subst this
              exact hb
            | cons x pre =>
              simp only [List.cons_append, List.cons.injEq] at he
              rw [← he.1, target_cons, blen_append] at h1
              omega
    · rename_i hge
      rw [onBoundary_right, clean_iff (fun q hq => hne q (by simp [hq])) (by omega)]
      constructor
      · rintro (⟨i, pre, post, he, h1, h2, h3⟩ | ⟨q, k, ⟨pre, post, he, h1, h2, h3⟩, hb⟩)
        · exact .inl ⟨_, p :: pre, post, by rw [he]; rfl, by rw [target_cons, blen_append]; omega, rfl, h3⟩
        · exact .inr ⟨q, k, ⟨p :: pre, post, by rw [he]; rfl, by rw [target_cons, blen_append]; omega, h2, h3⟩, hb⟩
      · rintro (⟨i, pre, post, he, h1, h2, h3⟩ | ⟨q, k, ⟨pre, post, he, h1, h2, h3⟩, hb⟩)
        · cases pre with
          | nil =>
            have e : p.dst = [] := by
              have : o = 0 := by simpa [target] using h1
              exact blen_eq_zero.mp (by omega)
            rw [List.nil_append] at he
            exact absurd e (h3 p (by rw [← he]; rfl))
          | cons x pre =>
            simp only [List.cons_append, List.cons.injEq] at he
            rw [← he.1, target_cons, blen_append] at h1
            exact .inl ⟨_, pre, post, he.2, by omega, rfl, h3⟩
        · cases pre with
          | nil =>
            simp only [List.nil_append, List.cons.injEq] at he
            obtain ⟨rfl, rfl⟩ := he
            have : o = k := by simpa [target] using h1
            omega
          | cons x pre =>
            simp only [List.cons_append, List.cons.injEq] at he
            rw [← he.1, target_cons, blen_append] at h1
            exact .inr ⟨q, k, ⟨pre, post, he.2, by omega, h2, h3⟩, hb⟩

private theorem slice_iff {text : Str} {a b : Nat} (hab : a ≤ b) : (sliceBytes text a b).isSome ↔ OnBoundary text a ∧ OnBoundary text b := by
  rw [Option.isSome_iff_exists]
  constructor
  · rintro ⟨m, h⟩
    rw [sliceBytes_eq_some] at h
    obtain ⟨p, r, rfl, rfl, rfl⟩ := h
    exact ⟨⟨p, m ++ r, by simp, rfl⟩, ⟨p ++ m, r, rfl, by rw [blen_append]⟩⟩
  · rintro ⟨⟨p, q, rfl, rfl⟩, hb⟩
    obtain ⟨n, rfl⟩ : ∃ n, b = blen p + n := ⟨b - blen p, by omega⟩
    rw [onBoundary_right] at hb
    obtain ⟨m, r, rfl, rfl⟩ := hb
    exact ⟨m, by rw [← List.append_assoc]; exact sliceBytes_append p m r⟩

/-- C35, exactly: the corrected byte range of a token is a valid slice of the original text if and only if both ends, led back to the text that the first filter has returned, are boundaries between its pieces or
lie inside a replacement at a place where the replaced piece has a character boundary. -/
theorem c35_exact (a : Analyzer) (text : Str) (ps : List Piece) (stages : List (List Piece)) (final : Str) (hc : FilterChain a.characterFilters text (ps :: stages) final)
    (toks : List FToken) (h : a.analyze text = .ok toks) (before : List FToken) (hb : a.tokens final = .ok before) :
    List.Forall₂ (fun t t' : FToken => t.byteStart ≤ t.byteEnd → t.byteEnd ≤ blen final →
      ((sliceBytes text t'.byteStart t'.byteEnd).isSome ↔ Clean ps (sourceThrough stages t.byteStart) ∧ Clean ps (sourceThrough stages t.byteEnd))) before toks := by
  have hbounds := fun x y (hxy : x ≤ y) => FilterChain.bounds (a := x) (b := y) hc hxy
  rw [FilterChain.analyze hc hb] at h
  cases h
  rw [List.forall₂_map_right_iff, List.forall₂_same]
  intro t _ hle hend
  dsimp only [FToken.withRange]
  rw [slice_iff (hbounds _ _ hle).1]
  generalize a.characterFilters = cfs at hc
  cases hc with
  | cons f fs _ _ _ _ first rest =>
    have hr := fun x y (hxy : x ≤ y) => FilterChain.bounds (a := x) (b := y) rest hxy
    simp only [sourceThrough]
    conv_lhs => rw [← first.cut]
    rw [clean_iff first.nonempty (Nat.le_trans (hr _ _ hle).1 ((hr _ _ (Nat.le_refl _)).2 hend)), clean_iff first.nonempty ((hr _ _ (Nat.le_refl _)).2 hend)]

private theorem onBoundary_ascii {s : Str} (h : ∀ c ∈ s, c.utf8Size = 1) : ∀ {n : Nat}, n ≤ blen s → OnBoundary s n := by
  induction s with
  | nil => intro n hn; exact ⟨[], [], rfl, by simpa using hn⟩
  | cons c s ih =>
    intro n hn
    cases n with
    | zero => exact ⟨[], _, rfl, rfl⟩
    | succ n =>
      have h1 := h c (by simp)
      obtain ⟨x, y, rfl, rfl⟩ := ih (fun d hd => h d (by simp [hd])) (n := n) (by simp only [blen_cons] at hn; omega)
      exact ⟨c :: x, y, rfl, by simp only [blen_cons]; omega⟩

/-- With one filter that leaves everything alone except pieces made of one-byte characters, every offset on a character boundary is clean. -/
theorem c35_ascii_pieces {ps : List Piece} (hne : ∀ p ∈ ps, p.src ≠ []) (hp : ∀ p ∈ ps, p.dst = p.src ∨ ∀ c ∈ p.src, c.utf8Size = 1) :
    ∀ {o : Nat}, OnBoundary (target ps) o → Clean ps o := by
  intro o ho
  have hle : o ≤ blen (target ps) := by
    obtain ⟨x, y, h, rfl⟩ := ho
    rw [h, blen_append]
    omega
  by_cases hb : ∃ i, Boundary ps o i
  · exact .inl hb
  · have : ∀ {ps : List Piece} {o : Nat}, o ≤ blen (target ps) → ¬ (∃ i, Boundary ps o i) → ∃ p k, InsideReplacement ps o p k := by
      intro ps
      induction ps with
      | nil =>
        intro o ho hn
        exact absurd ⟨0, [], [], rfl, by simpa [target] using ho, rfl, by simp⟩ hn
      | cons p ps ih =>
        intro o ho hn
        rw [target_cons, blen_append] at ho
        by_cases hlt : o < blen p.dst
        · by_cases h0 : o = 0
          · subst h0
            refine absurd ⟨0, [], p :: ps, rfl, rfl, rfl, ?_⟩ hn
            intro q hq
            simp only [List.head?_cons, Option.some.injEq] at hq
            subst hq
            intro h
            rw [h] at hlt
            exact absurd hlt (by simp)
          · exact ⟨p, o, [], ps, rfl, by simp [target], by omega, hlt⟩
        · obtain ⟨q, k, pre, post, he, h1, h2, h3⟩ := ih (o := o - blen p.dst) (by omega) (by
            rintro ⟨i, pre, post, he, h1, h2, h3⟩
            exact hn ⟨_, p :: pre, post, by rw [he]; rfl, by rw [target_cons, blen_append]; omega, rfl, h3⟩)
          exact ⟨q, k, p :: pre, post, by rw [he]; rfl, by rw [target_cons, blen_append]; omega, h2, h3⟩
    obtain ⟨p, k, hin⟩ := this hle hb
    refine .inr ⟨p, k, hin, ?_⟩
    obtain ⟨pre, post, rfl, rfl, h2, h3⟩ := hin
    have hpos : 0 < blen p.src := Nat.pos_of_ne_zero fun h => hne p (by simp) (blen_eq_zero.mp h)
    rcases hp p (by simp) with he | he
    · rw [show target (pre ++ p :: post) = target pre ++ (p.dst ++ target post) by simp [target], onBoundary_right, onBoundary_left (by omega), he] at ho
      rw [he] at h3
      rwa [Nat.min_eq_left (by omega)]
    · exact onBoundary_ascii he (by omega)

/-- C35, a case in which it holds: with one mapping filter whose keys consist of one-byte characters, the byte range of every token is a valid slice of the original text. -/
theorem c35_ascii_keys (m : StrMap) (hm : MappingOk m) (hk : ∀ k v, (k, v) ∈ m → ∀ c ∈ k, c.utf8Size = 1) (tok : Tokenizer) (fs : List TokenFilter) (text : Str) (ps : List Piece)
    (hps : LongestMatch m text ps) (toks before : List FToken) (h : (Analyzer.mk [Mapping.filter ⟨m, ⟨Mapping.keyset m⟩⟩] tok fs).analyze text = .ok toks)
    (hb : (Analyzer.mk [Mapping.filter ⟨m, ⟨Mapping.keyset m⟩⟩] tok fs).tokens (target ps) = .ok before) :
    List.Forall₂ (fun t t' : FToken => (sliceBytes (target ps) t.byteStart t.byteEnd).isSome → (sliceBytes text t'.byteStart t'.byteEnd).isSome) before toks := by
  obtain ⟨qs, h1, h2⟩ := Mapping.filtered hm text
  obtain rfl := LongestMatch.unique hm hps h1
  have hpieces : ∀ p ∈ ps, p.dst = p.src ∨ ∀ c ∈ p.src, c.utf8Size = 1 := by
    clear h hb h2 h1
    induction hps with
    | done => simp
    | replace k v r ps mem longest rest ih =>
      intro p hp
      rcases List.mem_cons.mp hp with rfl | hp
      · exact .inr (hk _ _ mem)
      · exact ih p hp
    | keep c r ps none rest ih =>
      intro p hp
      rcases List.mem_cons.mp hp with rfl | hp
      · exact .inl rfl
      · exact ih p hp
  refine List.Forall₂.imp ?_ (c35_exact _ text ps [] (target ps) (.cons _ _ _ _ _ _ h2 (.nil _)) toks h before hb)
  intro t t' hiff hs
  have hle : t.byteStart ≤ t.byteEnd := by
    unfold sliceBytes at hs
    split at hs
    · assumption
    · exact absurd hs (by simp)
  have hb2 := (slice_iff hle).mp hs
  have hend : t.byteEnd ≤ blen (target ps) := by
    obtain ⟨x, y, h, e⟩ := hb2.2
    rw [h, blen_append]
    omega
  exact (hiff hle hend).mpr ⟨c35_ascii_pieces h2.nonempty hpieces hb2.1, c35_ascii_pieces h2.nonempty hpieces hb2.2⟩

/-! ### Non-vacuity -/

/-- `㌀` is replaced by `アパート`: the end of `アパ` is not clean (byte 6 comes from byte 2 of a three-byte character), the end of `アパート` is. -/
example : ¬ Clean [⟨['㌀'], ['ア', 'パ', 'ー', 'ト']⟩] 6 ∧ Clean [⟨['㌀'], ['ア', 'パ', 'ー', 'ト']⟩] 12 := by
  constructor
  · rw [← clean_iff (by simp) (by decide)]
    rintro ⟨x, y, h, hn⟩
    have h6 : sourceOffset [⟨['㌀'], ['ア', 'パ', 'ー', 'ト']⟩] 6 = 2 := by decide +kernel
    rw [h6] at hn
    cases x with
    | nil => exact absurd hn (by decide)
    | cons c x =>
      simp only [source, List.flatMap_cons, List.flatMap_nil, List.append_nil, List.cons_append, List.cons.injEq] at h
      obtain ⟨rfl, h⟩ := h
      have : blen ('㌀' :: x) = 3 + blen x := by simp only [blen_cons]; congr 1
      omega
  · exact .inl ⟨3, [⟨['㌀'], ['ア', 'パ', 'ー', 'ト']⟩], [], rfl, by decide +kernel, by decide +kernel, by simp⟩

/-- A mapping with one-byte keys: `ab` → `猫猫`. -/
example : (∀ k v, (k, v) ∈ [(['a', 'b'], ['猫', '猫'])] → ∀ c ∈ k, Char.utf8Size c = 1) ∧ MappingOk [(['a', 'b'], ['猫', '猫'])] ∧
    LongestMatch [(['a', 'b'], ['猫', '猫'])] ['a', 'b'] [⟨['a', 'b'], ['猫', '猫']⟩] := by
  refine ⟨by simp; decide, ⟨by simp, by decide, by simp, by decide⟩, .replace ['a', 'b'] _ [] [] (by simp) (by simp) .done⟩

/-- The two tokens `猫`, `猫` that the dictionary finds in the replacement get the ranges of `a` and of `b`. -/
example : ∃ toks, (Analyzer.mk [Mapping.filter ⟨[(['a', 'b'], ['猫', '猫'])], ⟨Mapping.keyset [(['a', 'b'], ['猫', '猫'])]⟩⟩] Cf.tok []).analyze ['a', 'b'] = .ok toks ∧
    toks.map (fun t => (t.text, t.byteStart, t.byteEnd)) = [(['猫'], 0, 1), (['猫'], 1, 2)] :=
  ⟨[⟨['猫'], 0, 1, 0, 1, ⟨3, true⟩, [['x']]⟩, ⟨['猫'], 1, 2, 1, 1, ⟨3, true⟩, [['x']]⟩], by decide +kernel, by decide +kernel⟩

end Verif.Props
