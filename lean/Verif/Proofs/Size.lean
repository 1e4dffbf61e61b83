import Verif.Spec.Size
import Verif.Proofs.Sources
import Verif.Proofs.LatticeScan
import Verif.Proofs.History
/-! The number of edges of a lattice. -/
namespace Verif.Model
open Verif.Spec

theorem mapM_length {α β : Type} {f : α → R β} {xs : List α} {ys : List β} (h : xs.mapM f = .ok ys) : ys.length = xs.length := by
  rw [mapM_ok_iff] at h
  exact h.length_eq.symm

/-- Words with the surfaces `take 1`, `take 2`, ... are counted once. -/
theorem sum_prefixes (items : List Item) (s : Str) :
    ((List.range s.length).map fun i => (items.filter (·.surface = s.take (i + 1))).length).sum ≤ items.countP (fun w => decide (w.surface ≠ [] ∧ w.surface <+: s)) := by
  induction items with
  | nil => simp
  | cons w items ih =>
    have key : ∀ n, n ≤ s.length → ((List.range n).map fun i => ((w :: items).filter (·.surface = s.take (i + 1))).length).sum ≤
        ((List.range n).map fun i => (items.filter (·.surface = s.take (i + 1))).length).sum + (if w.surface ≠ [] ∧ w.surface <+: s ∧ w.surface.length ≤ n then 1 else 0) := by
      intro n
      induction n with
      | zero => simp
      | succ n ihn =>
        intro hn
        have := ihn (by omega)
        rw [List.range_succ, List.map_append, List.map_append, List.sum_append, List.sum_append]
        simp only [List.map_cons, List.map_nil, List.sum_cons, List.sum_nil, Nat.add_zero, List.filter_cons] at this ⊢
        by_cases hw : w.surface = s.take (n + 1)
        · have hl : w.surface.length = n + 1 := by rw [hw]; simp; omega
          have h1 : ¬ (w.surface ≠ [] ∧ w.surface <+: s ∧ w.surface.length ≤ n) := by omega
          have h2 : w.surface ≠ [] ∧ w.surface <+: s ∧ w.surface.length ≤ n + 1 := ⟨fun h => by simp [h] at hl, by rw [hw]; exact List.take_prefix _ _, by omega⟩
          rw [if_neg h1] at this
          rw [if_pos h2]
          simp only [hw, decide_true, if_true, List.length_cons] at this ⊢
          omega
        · simp only [hw, decide_false, Bool.false_eq_true, if_false] at this ⊢
          have : (if w.surface ≠ [] ∧ w.surface <+: s ∧ w.surface.length ≤ n then 1 else 0) ≤ (if w.surface ≠ [] ∧ w.surface <+: s ∧ w.surface.length ≤ n + 1 then 1 else 0) := by
            split
            · rw [if_pos (by grind)]
            · omega
          omega
    have h1 := key _ (Nat.le_refl _)
    rw [List.countP_cons]
    refine Nat.le_trans h1 (Nat.add_le_add ih ?_)
    split
    · rw [if_pos (by grind)]
    · omega

theorem dictEdges_length {d : PrefixDict} {items : List Item} {look : WordId → List Str → Prop} (h : WordsOk items look d) {start : Nat} {suffix : Str} {es : List Edge}
    (he : dictEdges d start suffix = .ok es) : es.length ≤ items.countP (fun w => decide (w.surface ≠ [] ∧ w.surface <+: suffix)) := by
  obtain ⟨find, h1, h2⟩ := h.find
  unfold dictEdges at he
  rw [prefix_eq_findSurface h.keys h1, bind_ok] at he
  rw [mapM_length he, List.length_flatMap]
  simp only [List.length_map]
  have : ∀ k, (find k).length = (items.filter (·.surface = k)).length := fun k => (h2 k).length_eq
  simp only [this]
  exact sum_prefixes items suffix

theorem unkEdges_length {cd : CharDefs} {unk : UnkDict} {start : Nat} {suffix : Str} {found : Bool} {ue : Option Nat} {cat ord : Nat} {r : List Edge × Option Nat}
    (h : unkEdges cd unk start suffix found ue cat ord = .ok r) {ids : List UInt32} (hi : unk.lookupWordIds cat = .ok ids) : r.1.length ≤ ids.length := by
  unfold unkEdges at h
  rw [bind_eq_ok] at h
  obtain ⟨n, -, h⟩ := h
  split at h
  · rw [hi, bind_ok, bind_eq_ok] at h
    obtain ⟨new, hn, h⟩ := h
    simp only [pure_eq_ok, Except.ok.injEq] at h
    subst h
    exact Nat.le_of_eq (mapM_length hn)
  · simp only [pure_eq_ok, Except.ok.injEq] at h
    subst h
    simp

theorem allUnkEdges_length {L : Lexicon} {env : LatticeEnv} {look : WordId → List Str → Prop} (h : Rep L env look) {start : Nat} {c : Char} {s : Str} {found : Bool} {ue : Option Nat}
    {r : List Edge × Option Nat} (he : allUnkEdges env start (c :: s) found ue = .ok r) :
    r.1.length ≤ ((categoriesOf L.defs c.toNat).map fun name => L.unk.countP (fun l => decide (l.name = name))).sum := by
  obtain ⟨ids, h1, h2⟩ := h.cats c
  unfold allUnkEdges at he
  dsimp only at he
  rw [h1, bind_ok] at he
  generalize hcs : categoriesOf L.defs c.toNat = names at h2 ⊢
  rw [mapM_ok_iff] at h2
  suffices H : ∀ (k : Nat) (st : List Edge × Option Nat) (r : List Edge × Option Nat), (ids.zipIdx k).foldlM (fun st cat => do
      let r ← unkEdges env.charDefs env.unk start (c :: s) found st.2 cat.1 cat.2
      return (st.1 ++ r.1, r.2)) st = .ok r → r.1.length ≤ st.1.length + (names.map fun name => L.unk.countP (fun l => decide (l.name = name))).sum by
    simpa using H 0 ([], ue) r he
  clear he hcs h1
  induction h2 with
  | nil =>
    intro k st r hr
    simp only [List.zipIdx_nil, List.foldlM_nil, pure_eq_ok, Except.ok.injEq] at hr
    subst hr
    simp
  | @cons id name ids names hn _ ih =>
    intro k st r hr
    rw [List.zipIdx_cons, List.foldlM_cons, bind_eq_ok] at hr
    obtain ⟨st', hst, hr⟩ := hr
    rw [bind_eq_ok] at hst
    obtain ⟨r', hr', hst⟩ := hst
    simp only [pure_eq_ok, Except.ok.injEq] at hst
    subst hst
    have := ih _ _ _ hr
    obtain ⟨wids, h3, h4⟩ := h.unk id name hn
    have h5 := unkEdges_length hr' h3
    have h6 := mapM_length h4
    rw [List.length_map, ← List.countP_eq_length_filter] at h6
    simp only [List.length_append, List.map_cons, List.sum_cons] at this ⊢
    omega

variable {c : Contents} {user : Option (DictionaryKind × List Row)} {us ws : List SourceWord} {t : Tokenizer}

theorem newEdges_length (h : TokOn c user us ws t) {start : Nat} {suffix : Str} {ue : Option Nat} {r : List Edge × Option Nat} (hs : suffix ≠ [])
    (he : newEdges t.env start suffix ue = .ok r) :
    r.1.length ≤ Lexicon.candidates ⟨us.map SourceWord.userItem ++ ws.map SourceWord.systemItem, c.defs, c.unk, c.costs⟩ suffix := by
  unfold newEdges at he
  rw [bind_eq_ok] at he
  obtain ⟨un, hun, he⟩ := he
  rw [bind_eq_ok] at he
  obtain ⟨sn, hsn, he⟩ := he
  have h2 := dictEdges_length h.system hsn
  have h1 : un.length ≤ (us.map SourceWord.userItem).countP (fun w => decide (w.surface ≠ [] ∧ w.surface <+: suffix)) := by
    unfold userEdges at hun
    rcases h.user with ⟨-, -, hn⟩ | ⟨u, hu, hw⟩
    · simp only [Tokenizer.env, hn, Option.map_none, Except.ok.injEq] at hun
      subst hun
      simp
    · simp only [Tokenizer.env, hu, Option.map_some] at hun
      exact dictEdges_length hw hun
  obtain ⟨ch, rest, rfl⟩ := List.exists_cons_of_ne_nil hs
  unfold Lexicon.candidates
  dsimp only
  rw [List.countP_append]
  split at he
  · rw [bind_eq_ok] at he
    obtain ⟨r', hr', he⟩ := he
    simp only [pure_eq_ok, Except.ok.injEq] at he
    subst he
    have h3 := allUnkEdges_length h.rep hr'
    simp only [List.length_append] at h3 ⊢
    omega
  · simp only [pure_eq_ok, Except.ok.injEq] at he
    subst he
    simp only [List.length_append]
    omega

/-- The candidates at a byte offset. -/
def Lexicon.candidatesAt (L : Lexicon) (text : Str) (k : Nat) : Nat :=
  match dropBytes text k with
  | some rest => L.candidates rest
  | none => 0

theorem candidatesAt_sum (L : Lexicon) (text : Str) : ((List.range (blen text)).map (Lexicon.candidatesAt L text)).sum = L.allCandidates text := by
  induction text with
  | nil => rfl
  | cons c s ih =>
    have hc := Char.utf8Size_pos c
    have h1 : List.range (blen (c :: s)) = 0 :: ((List.range (c.utf8Size - 1)).map (· + 1) ++ (List.range (blen s)).map (c.utf8Size + ·)) := by
      rw [blen_cons, List.range_add]
      obtain ⟨n, hn⟩ : ∃ n, c.utf8Size = n + 1 := ⟨c.utf8Size - 1, by omega⟩
      rw [hn, List.range_succ_eq_map]
      simp
    rw [h1, List.map_cons, List.map_append, List.sum_cons, List.sum_append, List.map_map, List.map_map]
    have h2 : (List.range (c.utf8Size - 1)).map (Lexicon.candidatesAt L (c :: s) ∘ (· + 1)) = (List.range (c.utf8Size - 1)).map fun _ => 0 := by
      apply List.map_congr_left
      intro i hi
      rw [List.mem_range] at hi
      simp only [Function.comp, Lexicon.candidatesAt, dropBytes]
      rw [if_neg (by omega)]
    have h3 : (List.range (blen s)).map (Lexicon.candidatesAt L (c :: s) ∘ (c.utf8Size + ·)) = (List.range (blen s)).map (Lexicon.candidatesAt L s) := by
      apply List.map_congr_left
      intro i hi
      obtain ⟨n, hn⟩ : ∃ n, c.utf8Size + i = n + 1 := ⟨c.utf8Size + i - 1, by omega⟩
      simp only [Function.comp, Lexicon.candidatesAt]
      rw [hn, dropBytes, if_pos (by omega), ← hn]
      simp
    rw [h2, h3, ih]
    simp [Lexicon.candidatesAt, dropBytes, Lexicon.allCandidates]

theorem gen_length (h : TokOn c user us ws t) {text : Str} {es : List Edge} (hg : gen t.env text = .ok es) :
    es.length ≤ Lexicon.allCandidates ⟨us.map SourceWord.userItem ++ ws.map SourceWord.systemItem, c.defs, c.unk, c.costs⟩ text := by
  rw [← candidatesAt_sum]
  unfold gen at hg
  rw [bind_eq_ok] at hg
  obtain ⟨⟨es', ue⟩, hf, hg⟩ := hg
  simp only [pure_eq_ok, Except.ok.injEq] at hg
  subst hg
  generalize hL : (⟨us.map SourceWord.userItem ++ ws.map SourceWord.systemItem, c.defs, c.unk, c.costs⟩ : Lexicon) = L
  suffices H : ∀ (ks : List Nat) (st r : List Edge × Option Nat), (∀ k ∈ ks, k < blen text) → ks.foldlM (genStep t.env text) st = .ok r →
      r.1.length ≤ st.1.length + (ks.map (Lexicon.candidatesAt L text)).sum by
    simpa using H _ _ _ (by simp) hf
  intro ks
  induction ks with
  | nil =>
    intro st r _ hr
    simp only [List.foldlM_nil, pure_eq_ok, Except.ok.injEq] at hr
    subst hr
    simp
  | cons k ks ih =>
    intro st r hk hr
    rw [List.foldlM_cons, bind_eq_ok] at hr
    obtain ⟨st', hst, hr⟩ := hr
    have h1 := ih st' r (fun k hk' => hk k (by simp [hk'])) hr
    have h2 : st'.1.length ≤ st.1.length + Lexicon.candidatesAt L text k := by
      unfold genStep at hst
      split at hst
      · rw [bind_eq_ok] at hst
        obtain ⟨suffix, hs, hst⟩ := hst
        rw [orPanic_eq_ok] at hs
        rw [bind_eq_ok] at hst
        obtain ⟨⟨new, ue'⟩, hn, hst⟩ := hst
        simp only [pure_eq_ok, Except.ok.injEq] at hst
        subst hst
        have hne : suffix ≠ [] := by
          rintro rfl
          obtain ⟨p, hp, hb⟩ := dropBytes_eq_some.mp hs
          have := hk k (by simp)
          rw [List.append_nil] at hp
          subst hp
          omega
        have := newEdges_length h hne hn
        rw [hL] at this
        simp only [Lexicon.candidatesAt, hs, List.length_append]
        dsimp only at this
        omega
      · simp only [pure_eq_ok, Except.ok.injEq] at hst
        subst hst
        omega
    rw [List.map_cons, List.sum_cons]
    omega

/-! ### The linear bound -/

theorem sum_countP_le {names : List Str} (hn : names.Nodup) (ls : List UnkLine) : (names.map fun name => ls.countP (fun l => decide (l.name = name))).sum ≤ ls.length := by
  induction ls with
  | nil => simp
  | cons l ls ih =>
    have key : (names.map fun name => (l :: ls).countP (fun l => decide (l.name = name))).sum =
        (names.map fun name => ls.countP (fun l => decide (l.name = name))).sum + names.count l.name := by
      clear ih hn
      induction names with
      | nil => simp
      | cons n names ih =>
        simp only [List.map_cons, List.sum_cons, List.countP_cons, List.count_cons] at ih ⊢
        rw [ih]
        by_cases h : l.name = n
        · simp [h]; omega
        · simp [h, Ne.symm h]; omega
    rw [key, List.length_cons]
    have := List.nodup_iff_count_le_one.mp hn l.name
    omega

theorem categoriesOf_nodup (file : List DefLine) (c : Nat) : (categoriesOf file c).Nodup := by
  unfold categoriesOf
  dsimp only
  split
  · simp
  · rw [← foldl_push_nil]
    exact foldl_push_nodup _ _ .nil

theorem candidates_le (L : Lexicon) (rest : Str) : L.candidates rest ≤ L.words.length + L.unk.length := by
  unfold Lexicon.candidates
  refine Nat.add_le_add List.countP_le_length ?_
  split
  · omega
  · exact sum_countP_le (categoriesOf_nodup _ _) _

theorem allCandidates_le (L : Lexicon) (text : Str) : L.allCandidates text ≤ text.length * (L.words.length + L.unk.length) := by
  induction text with
  | nil => simp [Lexicon.allCandidates]
  | cons c s ih =>
    have := candidates_le L (c :: s)
    simp only [Lexicon.allCandidates, List.length_cons, Nat.add_mul, Nat.one_mul] at ih ⊢
    omega

end Verif.Model
