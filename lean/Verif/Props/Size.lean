import Verif.Proofs.Size
import Verif.Proofs.NoPanic
import Verif.Props.Language
/-! C97: the lattice of a sentence grows linearly with the sentence. -/
namespace Verif.Props
open Verif.Model Verif.Spec

/-- C97: whatever the lattice was used for before, after `set_text` with a sentence it holds the edges for the start and the end and at most one edge for every position of the sentence and every record or
`unk.def` line that could start there; in particular at most the number of characters times the number of records and lines. -/
theorem c97_edges (env : BuildEnv) (kind : DictionaryKind) (src : SourceDir) (c : Contents) (user : Option (DictionaryKind × List Row)) (hr : Ready env kind src c user) :
    ∃ parts m u, compile env kind src = .ok parts ∧ ConnMatrix.load parts.matrix = .ok m ∧ compileUser env.yada user = .ok u ∧
      ∀ (mode : Mode) (l : Lattice), History l → ∀ s, s ≠ [] → ∃ l', l.setText (Tokenizer.env ⟨parts.dictionary m, u, mode⟩) s = .ok l' ∧
        l'.edges.length ≤ 2 + (c.lexicon kind user).allCandidates s ∧
        l'.edges.length ≤ 2 + s.length * ((c.lexicon kind user).words.length + c.unk.length) := by
  obtain ⟨parts, m, u, h1, h2, h3, h4⟩ := compile_good hr.yada hr.hashOrder hr.contents hr.good hr.user
  refine ⟨parts, m, u, h1, h2, h3, fun mode l hl s hs => ?_⟩
  have ht := h4 mode
  obtain ⟨f, b, -, -, -, -, -, hd, hu, hc⟩ := TokOk.consistent ht hr.good hr.user
  have he : EnvOk f b (Tokenizer.env ⟨parts.dictionary m, u, mode⟩) := by
    refine ⟨hd, ?_, hc⟩
    intro d hd'
    simp only [Tokenizer.env, Option.map_eq_some_iff] at hd'
    obtain ⟨u', hu', rfl⟩ := hd'
    exact hu u' hu'
  obtain ⟨es, hes, -⟩ := gen_total he s
  have hlen := gen_length ht hes
  refine ⟨_, by rw [setText_eq hl.latInv _ hs, hes]; rfl, ?_, ?_⟩
  · simp only [lat, latOf, List.length_cons]
    exact Nat.le_trans (Nat.le_of_eq (Nat.add_comm es.length 2)) (Nat.add_le_add_left hlen 2)
  · have := Nat.le_trans hlen (allCandidates_le _ _)
    simp only [lat, latOf, List.length_cons]
    exact Nat.le_trans (Nat.le_of_eq (Nat.add_comm es.length 2)) (Nat.add_le_add_left this 2)

/-- The edge numbers of the lattice fit into 32 bits as long as the sentence has fewer characters than 2 ^ 32 over the number of records and lines. -/
theorem c97_numbers (env : BuildEnv) (kind : DictionaryKind) (src : SourceDir) (c : Contents) (user : Option (DictionaryKind × List Row)) (hr : Ready env kind src c user)
    (s : Str) (hs : s ≠ []) (hl : 2 + s.length * ((c.lexicon kind user).words.length + c.unk.length) ≤ 2 ^ 32) :
    ∃ parts m u, compile env kind src = .ok parts ∧ ConnMatrix.load parts.matrix = .ok m ∧ compileUser env.yada user = .ok u ∧
      ∀ (mode : Mode) (l : Lattice), History l → ∃ l', l.setText (Tokenizer.env ⟨parts.dictionary m, u, mode⟩) s = .ok l' ∧
        ∀ i, i < l'.edges.length → (UInt32.ofNat i).toNat = i := by
  obtain ⟨parts, m, u, h1, h2, h3, h4⟩ := c97_edges env kind src c user hr
  refine ⟨parts, m, u, h1, h2, h3, fun mode l hh => ?_⟩
  obtain ⟨l', h5, -, h6⟩ := h4 mode l hh s hs
  refine ⟨l', h5, fun i hi => ?_⟩
  rw [UInt32.toNat_ofNat']
  exact Nat.mod_eq_of_lt (by omega)

namespace Lang

theorem ready : Ready Dir.env .unidic source contents (some (.ipadic, [Usr.simple])) where
  yada := Src.yadaOk
  hashOrder _ := .refl _
  contents := saysSo
  good := good
  user := by
    rintro k rows h
    cases h
    exact goodUser _ (.inl rfl)

end Lang

/-- Two categories, a user dictionary and overlapping words: for `ab1` at most 7 words, which is less than 3 times 7. -/
example : Ready Dir.env .unidic Lang.source Lang.contents (some (.ipadic, [Usr.simple])) ∧ "ab1".toList ≠ [] ∧
    (Lang.contents.lexicon .unidic (some (.ipadic, [Usr.simple]))).allCandidates "ab1".toList = 7 ∧
    (Lang.contents.lexicon .unidic (some (.ipadic, [Usr.simple]))).words.length = 4 ∧ Lang.contents.unk.length = 3 :=
  ⟨Lang.ready, by decide, by decide +kernel, by decide +kernel, by decide +kernel⟩

end Verif.Props
