import Verif.Spec.Inert
import Verif.Proofs.Mapping
import Verif.Proofs.IterationMark
/-! Character filters that find nothing to do. -/
namespace Verif.Model
open Verif.Spec

theorem mapping_inert {m : StrMap} (hm : MappingOk m) {text : Str} (h : ∀ k v, (k, v) ∈ m → ¬ k <:+: text) : Mapping.apply ⟨m, ⟨Mapping.keyset m⟩⟩ text = .ok (text, .empty) := by
  have key : ∀ (r pre : Str) (fuel : Nat), text = pre ++ r → blen r < fuel → Mapping.loop ⟨m, ⟨Mapping.keyset m⟩⟩ text fuel (blen pre) pre .empty = .ok (text, .empty) := by
    intro r
    induction r with
    | nil =>
      intro pre fuel ht hf
      obtain ⟨n, rfl⟩ : ∃ n, fuel = n + 1 := ⟨fuel - 1, by omega⟩
      rw [List.append_nil] at ht
      subst ht
      rw [Mapping.loop, if_neg (by omega)]
    | cons c r ih =>
      intro pre fuel ht hf
      obtain ⟨n, rfl⟩ : ∃ n, fuel = n + 1 := ⟨fuel - 1, by omega⟩
      have hc := Char.utf8Size_pos c
      rw [blen_cons] at hf
      rw [Mapping.loop, if_pos (by rw [ht, blen_append, blen_cons]; omega)]
      rw [show dropBytes text (blen pre) = some (c :: r) by rw [ht]; exact dropBytes_append _ _]
      have hspec := Mapping.matchLen_spec hm (c :: r)
      cases hl : Mapping.matchLen ⟨m, ⟨Mapping.keyset m⟩⟩ (c :: r) with
      | some l =>
        exfalso
        rw [hl] at hspec
        obtain ⟨k, v, r', h1, h2, -⟩ := hspec
        exact h k v h1 ⟨pre, r', by rw [ht, h2, List.append_assoc]⟩
      | none =>
        have := ih (pre ++ [c]) n (by rw [ht]; simp) (by omega)
        rw [blen_append, blen_cons, blen_nil, Nat.add_zero] at this
        simp only [orPanic_some, bind_ok, hl]
        exact this
  exact key text [] _ rfl (by omega)

theorem normalize_inert (f : UnicodeNormalize) {text : Str} (h : (f.graphemes text).flatten = text) (hn : ∀ g ∈ f.graphemes text, f.normalForm g = g) : f.apply text = .ok (text, .empty) := by
  have key : ∀ (gs : List Str) (st : Str × Nat × OffsetTable), (∀ g ∈ gs, f.normalForm g = g) → st.2.2 = .empty →
      (gs.foldl f.step st).1 = st.1 ++ gs.flatten ∧ (gs.foldl f.step st).2.2 = .empty := by
    intro gs
    induction gs with
    | nil => intro st _ h; simpa using h
    | cons g gs ih =>
      intro st hg hst
      rw [List.foldl_cons]
      have h1 : f.step st g = (st.1 ++ g, st.2.1 + blen g, .empty) := by
        unfold UnicodeNormalize.step
        rw [hg g (by simp), hst]
        simp [OffsetTable.record]
      rw [h1]
      have := ih _ (fun g' h => hg g' (by simp [h])) (show (st.1 ++ g, st.2.1 + blen g, OffsetTable.empty).2.2 = .empty from rfl)
      simpa [List.append_assoc] using this
  obtain ⟨h1, h2⟩ := key _ ([], 0, .empty) hn rfl
  unfold UnicodeNormalize.apply
  dsimp only
  rw [h1, h2, h]
  rfl

theorem iterationMark_inert (f : IterationMark) {text : Str} (h : ∀ c ∈ text, ¬ IsMark f c) : f.apply text = .ok (text, .empty) := by
  obtain ⟨out, h1, h2, h3⟩ := iterationMark_apply f text
  rw [h1]
  have : out = text := by
    apply List.ext_getElem? 
    intro q
    by_cases hq : q < text.length
    · have hc : text[q]? = some text[q] := List.getElem?_eq_getElem hq
      rw [hc]
      exact (h3 q hq).1 _ hc (h _ (List.getElem_mem _))
    · rw [List.getElem?_eq_none (by omega), List.getElem?_eq_none (by omega)]
  rw [this]

theorem regex_inert (f : RegexFilter) {text : Str} (h : f.findIter text = []) : f.apply text = .ok (text, .empty) := by
  unfold RegexFilter.apply
  rw [h]
  simp only [List.foldlM_nil, pure_eq_ok, bind_ok, RegexFilter.replaceFrom]
  have := sliceBytes_append [] text []
  simp only [List.nil_append, List.append_nil, blen_nil, Nat.zero_add] at this
  rw [this]
  rfl

theorem setting_inert {env : FilterEnv} (hy : YadaContract env.yada) {s : CharFilterSetting} {f : CharFilter} (hf : s.new env = .ok f) (hm : ∀ m, s = .mapping m → MappingOk m) {text : Str}
    (h : NothingToDo env s text) : f text = .ok (text, .empty) := by
  cases s with
  | iterationMark kanji kana =>
    cases hf
    refine iterationMark_inert _ fun c hc => ?_
    rintro (⟨h1, rfl⟩ | ⟨h1, h2⟩)
    · exact absurd (h.1 hc) (by simpa using h1)
    · exact absurd (h.2 ⟨c, h2, hc⟩) (by simpa using h1)
  | mapping m =>
    simp only [CharFilterSetting.new, Mapping.new_ok hy (hm m rfl), bind_ok, pure_eq_ok, Except.ok.injEq] at hf
    subst hf
    exact mapping_inert (hm m rfl) h
  | regex p r =>
    simp only [CharFilterSetting.new] at hf
    cases hp : env.regex p with
    | none => rw [hp] at hf; cases hf
    | some find =>
      rw [hp] at hf
      cases hf
      exact regex_inert _ (h find hp)
  | unicodeNormalize kind =>
    cases hf
    exact normalize_inert _ h.1 h.2

/-- A filter that returns the text it gets and no table has no effect on the loop. -/
theorem step_inert {f : CharFilter} {st : Filtering} (h : f st.text = .ok (st.text, .empty)) : st.step f = .ok st := by
  unfold Filtering.step
  rw [h]
  rfl

end Verif.Model
