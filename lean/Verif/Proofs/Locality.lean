import Verif.Proofs.Relabel
import Verif.Proofs.Sources
import Verif.Spec.Locality
/-! Only the words that occur in a text matter for its tokenization. -/
namespace Verif.Model
open Verif.Spec

theorem forall₂_common {α β γ : Type} {P : α → γ → Prop} {Q : β → γ → Prop} {xs : List α} {ys : List β} {zs : List γ} (h : List.Forall₂ P xs zs) (h' : List.Forall₂ Q ys zs) :
    List.Forall₂ (fun x y => ∃ z, P x z ∧ Q y z) xs ys := by
  induction h generalizing ys with
  | nil => cases h'; exact .nil
  | cons h _ ih =>
    cases h' with
    | cons h' hs' => exact .cons ⟨_, h, h'⟩ (ih hs')

theorem forall₂_flatMap {α β γ : Type} {P : β → γ → Prop} {f : α → List β} {g : α → List γ} {xs : List α} (h : ∀ x ∈ xs, List.Forall₂ P (f x) (g x)) :
    List.Forall₂ P (xs.flatMap f) (xs.flatMap g) := by
  induction xs with
  | nil => exact .nil
  | cons x xs ih =>
    rw [List.flatMap_cons, List.flatMap_cons]
    exact forall₂_append (h x (by simp)) (ih fun y hy => h y (by simp [hy]))

theorem forall₂_map₂ {α β γ δ : Type} {P : γ → δ → Prop} {f : α → γ} {g : β → δ} {xs : List α} {ys : List β} (h : List.Forall₂ (fun x y => P (f x) (g y)) xs ys) :
    List.Forall₂ P (xs.map f) (ys.map g) := by
  induction h with
  | nil => exact .nil
  | cons h _ ih => exact .cons h ih

/-- Two word ids show the same details. -/
def SameShown (t t' : Tokenizer) (w w' : WordId) : Prop := ∃ d, Shows t.dictionary t.userDictionary w d ∧ Shows t'.dictionary t'.userDictionary w' d

/-- What a sentence contains at a position. -/
theorem occurs_prefix {s rest : Str} {k i : Nat} (h : dropBytes s k = some rest) (hi : i < rest.length) : rest.take (i + 1) ≠ [] ∧ rest.take (i + 1) <:+: s := by
  obtain ⟨p, rfl, -⟩ := dropBytes_eq_some.mp h
  refine ⟨?_, ?_⟩
  · intro hn
    have := congrArg List.length hn
    rw [List.length_take, List.length_nil] at this
    omega
  · refine ⟨p, rest.drop (i + 1), ?_⟩
    rw [List.append_assoc, List.take_append_drop]

theorem words_same {look look' : WordId → List Str → Prop} {items items' : List Item} {d d' : PrefixDict} (h : WordsOk items look d) (h' : WordsOk items' look' d') {s : Str}
    (hw : ∀ w, w ≠ [] → w <:+: s → items.filter (·.surface = w) = items'.filter (·.surface = w)) {k : Nat} {rest : Str} (hr : dropBytes s k = some rest) :
    RR (SameFound fun w w' => ∃ x, look w x ∧ look' w' x) (d.prefix rest) (d'.prefix rest) := by
  obtain ⟨find, h1, h2⟩ := h.find
  obtain ⟨find', h1', h2'⟩ := h'.find
  rw [prefix_eq_findSurface h.keys h1, prefix_eq_findSurface h'.keys h1']
  refine forall₂_flatMap fun i hi => forall₂_map₂ ?_
  obtain ⟨ho1, ho2⟩ := occurs_prefix hr (List.mem_range.mp hi)
  have hs := h2' (rest.take (i + 1))
  rw [← hw _ ho1 ho2] at hs
  refine List.Forall₂.imp ?_ (forall₂_common (h2 (rest.take (i + 1))) hs)
  rintro e e' ⟨it, ⟨-, a1, a2, a3, a4⟩, -, b1, b2, b3, b4⟩
  exact ⟨rfl, a3.trans b3.symm, a1.trans b1.symm, a2.trans b2.symm, _, a4, b4⟩

theorem words_none {look : WordId → List Str → Prop} {items : List Item} {d : PrefixDict} (h : WordsOk items look d) {s : Str}
    (hw : ∀ w, w ≠ [] → w <:+: s → items.filter (·.surface = w) = []) {k : Nat} {rest : Str} (hr : dropBytes s k = some rest) : d.prefix rest = .ok [] := by
  obtain ⟨find, h1, h2⟩ := h.find
  rw [prefix_eq_findSurface h.keys h1]
  congr 1
  rw [List.flatMap_eq_nil_iff]
  intro i hi
  obtain ⟨ho1, ho2⟩ := occurs_prefix hr (List.mem_range.mp hi)
  have := h2 (rest.take (i + 1))
  rw [hw _ ho1 ho2] at this
  cases hf : find (rest.take (i + 1)) with
  | nil => rfl
  | cons x xs => rw [hf] at this; cases this

variable {c c' : Contents} {kind : DictionaryKind} {user user' : Option (DictionaryKind × List Row)} {t t' : Tokenizer}

/-- What the user dictionary finds, in terms of its words. -/
theorem TokOk.userFound (h : TokOk c kind user t) : (user = none ∧ ∀ s, userPrefix t.env s = .ok []) ∨
    ∃ d, (∀ s, userPrefix t.env s = d.prefix s) ∧ WordsOk ((userWords user).map SourceWord.userItem) (Shows t.dictionary t.userDictionary) d := by
  rcases h.user with ⟨h1, -, h2⟩ | ⟨u, h1, h2⟩
  · exact .inl ⟨h1, fun s => by unfold userPrefix Tokenizer.env; rw [h2]; rfl⟩
  · exact .inr ⟨u.dict, fun s => by unfold userPrefix Tokenizer.env; rw [h1]; rfl, h2⟩

theorem same_env (h : TokOk c kind user t) (h' : TokOk c' kind user' t') (hmode : t.mode = t'.mode) (hcd : t.dictionary.charDefinitions = t'.dictionary.charDefinitions)
    (hunk : t.dictionary.unknownDictionary = t'.dictionary.unknownDictionary) (hids : ∀ e ∈ t.dictionary.unknownDictionary.costs, e.wordId.id.toNat = 2 ^ 32 - 1) {s : Str}
    (hw : ∀ w, w ≠ [] → w <:+: s → wordsFor (sourceFormat kind).unify c.rows w = wordsFor (sourceFormat kind).unify c'.rows w ∧ userWordsOf user w = userWordsOf user' w) :
    SameEnv (SameShown t t') t.env t'.env s where
  mode := hmode
  charDefs := hcd
  unk := hunk
  unkIds e he := by
    have := hids e he
    refine ⟨["UNK".toList], ?_, ?_⟩
    · unfold Shows detailsOf; rw [if_pos this]
    · unfold Shows detailsOf; rw [if_pos this]
  dict k rest hr := by
    refine words_same h.system h'.system (fun w h1 h2 => ?_) hr
    rw [filter_map_item (fun _ => rfl), filter_map_item (fun _ => rfl)]
    exact congrArg _ (hw w h1 h2).1
  user k rest hr := by
    have key : ∀ w, w ≠ [] → w <:+: s → ((userWords user).map SourceWord.userItem).filter (·.surface = w) = ((userWords user').map SourceWord.userItem).filter (·.surface = w) := by
      intro w h1 h2
      rw [filter_map_item (fun _ => rfl), filter_map_item (fun _ => rfl)]
      exact congrArg _ (hw w h1 h2).2
    rcases h.userFound with ⟨h1, h2⟩ | ⟨d, h1, h2⟩ <;> rcases h'.userFound with ⟨h1', h2'⟩ | ⟨d', h1', h2'⟩
    · rw [h2, h2']
      exact List.Forall₂.nil
    · rw [h2, h1']
      subst h1
      rw [words_none h2' (fun w a b => (key w a b).symm) hr]
      exact List.Forall₂.nil
    · rw [h1, h2']
      subst h1'
      rw [words_none h2 key hr]
      exact List.Forall₂.nil
    · rw [h1, h1']
      exact words_same h2 h2' key hr

theorem unk_ids {categories : List Str} {text : Str} {n : Nat} {u : UnkDict} (h : parseUnk categories text n = .ok u) : ∀ e ∈ u.costs, e.wordId.id.toNat = 2 ^ 32 - 1 := by
  unfold parseUnk at h
  rw [bind_eq_ok] at h
  obtain ⟨es, -, h⟩ := h
  cases h
  intro e he
  simp only [makeCostsArray, List.mem_map] at he
  obtain ⟨x, -, rfl⟩ := he
  rfl

theorem compile_parts {env : BuildEnv} {kind : DictionaryKind} {src : SourceDir} {parts : CompiledParts} (h : compile env kind src = .ok parts) :
    env.compileChardef (BuildCfg.ofKind kind) src = .ok parts.chardef ∧ env.compileUnk (BuildCfg.ofKind kind) src parts.chardef = .ok parts.unk ∧
      env.compileMatrix (BuildCfg.ofKind kind) src = .ok parts.matrix := by
  unfold compile at h
  dsimp only at h
  rw [bind_eq_ok] at h
  obtain ⟨cd, h1, h⟩ := h
  rw [bind_eq_ok] at h
  obtain ⟨unk, h2, h⟩ := h
  rw [bind_eq_ok] at h
  obtain ⟨rows, h3, h⟩ := h
  rw [bind_eq_ok] at h
  obtain ⟨dict, h4, h⟩ := h
  rw [bind_eq_ok] at h
  obtain ⟨m, h5, h⟩ := h
  cases h
  exact ⟨h1, h2, h5⟩

/-- The definition files alone determine the compiled definitions, unknown words and matrix. -/
theorem compile_same {env env' : BuildEnv} (hh : ∀ index, (env.hashOrder index).Perm index) (hh' : ∀ index, (env'.hashOrder index).Perm index) {src src' : SourceDir}
    (hd : SameDefinitions env env' src src') (hs : Says env kind src c) (hg : Good kind c) {parts parts' : CompiledParts} (h : compile env kind src = .ok parts)
    (h' : compile env' kind src' = .ok parts') : parts'.chardef = parts.chardef ∧ parts'.unk = parts.unk ∧ parts'.matrix = parts.matrix := by
  obtain ⟨a1, a2, a3⟩ := compile_parts h
  obtain ⟨b1, b2, b3⟩ := compile_parts h'
  have e : (BuildCfg.ofKind kind).encoding = (sourceFormat kind).encoding := by cases kind <;> rfl
  obtain ⟨bytes, hb, ht⟩ := hs.charDef
  obtain ⟨d, ⟨b, hpb, hbd⟩, -⟩ := chars_ok ht hg.ordered
  have h1 : parts.chardef = d := by
    unfold BuildEnv.compileChardef at a1
    rw [hb, e] at a1
    simp only [BuildEnv.readText, bind_ok] at a1
    rw [hpb, bind_ok, hbd _ (hh _)] at a1
    cases a1; rfl
  have h2 : parts'.chardef = d := by
    unfold BuildEnv.compileChardef at b1
    rw [hd.charDef, hb, e] at b1
    simp only [BuildEnv.readText, bind_ok] at b1
    rw [hd.decode, hpb, bind_ok, hbd _ (hh' _)] at b1
    cases b1; rfl
  have ht : ∀ f, env'.readText (BuildCfg.ofKind kind).encoding f = env.readText (BuildCfg.ofKind kind).encoding f := by
    intro f
    unfold BuildEnv.readText
    rw [hd.decode]
  refine ⟨by rw [h1, h2], ?_, ?_⟩
  · unfold BuildEnv.compileUnk at a2 b2
    rw [hd.unk, ht, h2] at b2
    rw [h1] at a2
    rw [a2] at b2
    exact (Except.ok.inj b2).symm
  · unfold BuildEnv.compileMatrix at a3 b3
    rw [hd.matrix, ht, a3] at b3
    exact (Except.ok.inj b3).symm

theorem parts_unk_ids {env : BuildEnv} {src : SourceDir} {parts : CompiledParts} (h : compile env kind src = .ok parts) : ∀ e ∈ parts.unk.costs, e.wordId.id.toNat = 2 ^ 32 - 1 := by
  obtain ⟨-, h2, -⟩ := compile_parts h
  unfold BuildEnv.compileUnk at h2
  rw [bind_eq_ok] at h2
  obtain ⟨text, -, h2⟩ := h2
  exact unk_ids h2

end Verif.Model
