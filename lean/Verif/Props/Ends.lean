import Verif.Proofs.Ends
import Verif.Props.Reported
/-! C103: loading, tokenization and analysis end, whatever the dictionaries and files contain. -/
namespace Verif.Props
open Verif.Model Verif.Spec

/-- C103: tokenization with any dictionary and user dictionary, also damaged ones, returns tokens or panics. It does not run forever. -/
theorem c103_tokenize (t : Tokenizer) (text : Str) : (∃ toks, t.tokenize text = .ok toks) ∨ t.tokenize text = .error .panic := rp_tokenize t text

/-- A damaged dictionary: the left id of its unknown word is outside the matrix, and the record of the word is missing. -/
def damaged : Tokenizer := ⟨{ Sample.dictionary with unknownDictionary := ⟨[[0]], [⟨WordId.default, 1, 7, 0⟩]⟩ }, none, .normal⟩

/-- Both outcomes occur with a damaged dictionary. -/
example : damaged.tokenize ['z'] = .error .panic ∧ (∃ toks, damaged.tokenize [] = .ok toks) ∧ ¬ Consistent damaged := by
  refine ⟨by decide +kernel, ⟨[], by decide +kernel⟩, fun h => ?_⟩
  obtain ⟨toks, h⟩ := c10_no_panic h ['z']
  have : damaged.tokenize ['z'] = .error .panic := by decide +kernel
  rw [this] at h
  cases h

/-- C103: if it returns, then every sentence is in the tokens as it is in the text, or there is no way to cut it into words and it has no token. -/
theorem c103_whole {t : Tokenizer} {text : Str} {toks : List Token} (h : t.tokenize text = .ok toks) {ss : List Str} (hss : Sentences text ss) :
    ∃ parts : List (List Token), toks = parts.flatten ∧
      List.Forall₂ (fun s part => (part.map (·.text)).flatten = s ∨ (part = [] ∧ ¬ ∃ ws, Segmentation t.env s ws)) ss parts := by
  obtain ⟨segs, hf, rfl⟩ := tokenize_spec h
  rw [sentences_split hss] at hf
  clear h hss
  suffices H : ∀ b p, ∃ parts : List (List Token), tokensFor b p segs.flatten = parts.flatten ∧
      List.Forall₂ (fun s part => (part.map (·.text)).flatten = s ∨ (part = [] ∧ ¬ ∃ ws, Segmentation t.env s ws)) ss parts from H 0 0
  induction hf with
  | nil => exact fun b p => ⟨[], rfl, .nil⟩
  | @cons s ws ss segs hs _ ih =>
    intro b p
    obtain ⟨parts, h1, h2⟩ := ih (b + blen (surfaces ws)) (p + ws.length)
    refine ⟨tokensFor b p ws :: parts, by rw [List.flatten_cons, tokensFor_append, h1, List.flatten_cons], .cons ?_ h2⟩
    rcases hs with hs | ⟨hno, rfl, _⟩
    · left
      rw [tokensFor_texts]
      exact (segmentation_iff.mp hs.1).surfaces_eq
    · exact .inr ⟨rfl, hno⟩

/-- C103: analysis with any dictionary, also damaged ones, and any configured filters returns tokens, panics, or returns the error for a word whose details are missing. -/
theorem c103_analyze (env : FilterEnv) (a : Analyzer) (hc : ∀ f ∈ a.characterFilters, ∃ s : CharFilterSetting, s.new env = .ok f)
    (ht : ∀ f ∈ a.tokenFilters, ∃ s : TokenFilterSetting, s.new env = .ok f) (text : Str) :
    (∃ toks, a.analyze text = .ok toks) ∨ a.analyze text = .error .panic ∨ a.analyze text = .error (.err .content) := by
  rcases analyze_outcomes (fun f hf s => (hc f hf).elim fun _ h => rp_charFilter h s) (fun f hf ts => (ht f hf).elim fun _ h => rp_tokenFilter h ts) text with (h | h) | h
  · exact .inl h
  · exact .inr (.inl h)
  · exact .inr (.inr h)

/-- C103: making an analyzer from a configuration file ends, and so does every analysis with it, whatever the files contain. -/
theorem c103_file (env : AnalyzerEnv) (hb : ∀ kind, Ends (env.load.builtin kind)) (path : Path) :
    Ends (env.fromFile path) ∧ ∀ a, env.fromFile path = .ok a → ∀ text, Ends (a.analyze text) := by
  constructor
  · unfold AnalyzerEnv.fromFile AnalyzerEnv.configValue
    refine ends_bind (reported_readFile _ _).ends fun data _ => ends_bind ?_ fun v _ => ?_
    · split
      · exact ends_ok _
      · exact ends_err _
    · unfold AnalyzerEnv.fromValue
      refine ends_bind (ends_loadEntries (fun _ _ => (reported_charFilter _ _ _).ends) _) fun _ _ => ends_bind ?_ fun c _ =>
        ends_bind (ends_bind (ends_fromConfig hb _) fun _ _ => ends_bind (ends_loadUser _ _) fun _ _ => ends_ok _) fun _ _ =>
        ends_bind (ends_loadEntries (fun _ _ => ends_tokenFilter _ _ _) _) fun _ _ => ends_ok _
      unfold tokenizerMember
      split
      · split
        · exact ends_ok _
        · exact ends_err _
      · exact ends_err _
  · intro a h text
    unfold AnalyzerEnv.fromFile AnalyzerEnv.fromValue at h
    simp only [bind_eq_ok, pure_eq_ok] at h
    obtain ⟨data, -, v, -, cfs, hc, c, -, t, -, tfs, ht, h⟩ := h
    cases h
    rcases analyze_outcomes (a := ⟨cfs, t, tfs⟩) (fun f hf s => loadEntries_all (P := fun f => ∀ s, ReturnsOrPanics (f s)) (fun _ _ _ h s => charFilter_rp h s) hc f hf s)
      (fun f hf ts => loadEntries_all (P := fun f => ∀ ts, ReturnsOrPanics (f ts)) (fun _ _ _ h ts => tokenFilter_rp h ts) ht f hf ts) text with h | h
    · exact h.ends
    · rw [h]; exact ends_err _

/-- C103: the tokenize command ends on every finite input, whatever the files and flags contain. -/
theorem c103_command (env : AnalyzerEnv) (hb : ∀ kind, Ends (env.load.builtin kind)) (pretty : Json → Str) (stdin : List UInt8) (args : TokenizeArgs) :
    Ends (env.cliTokenize pretty stdin args).2 := by
  have hfmt : Ends (Format.fromStr args.outputFormat) := by
    unfold Format.fromStr
    repeat' split
    all_goals first | exact ends_ok _ | exact ends_err _
  have hparse : ∀ flag, Ends (env.parseFlag flag) := fun flag => by
    unfold AnalyzerEnv.parseFlag
    split
    · exact ends_ok _
    · exact ends_err _
  have hcli : Ends (env.cliAnalyzer args) :=
    ends_bind (ends_fromConfig hb _) fun _ _ => ends_bind (ends_loadUser _ _) fun _ _ => ends_bind hfmt fun _ _ =>
      ends_bind (ends_mapM _ fun _ _ => ends_bind (hparse _) fun _ _ => (reported_charFilter _ _ _).ends) fun _ _ =>
      ends_bind (ends_mapM _ fun _ _ => ends_bind (hparse _) fun _ _ => ends_tokenFilter _ _ _) fun _ _ => ends_ok _
  have hin : Ends (env.input stdin args) := by
    unfold AnalyzerEnv.input
    split
    · exact (reported_readFile _ _).ends
    · exact ends_ok _
  have hall : Ends (do let a ← env.cliAnalyzer args; let input ← env.input stdin args; return (a, input) : R ((Analyzer × Format) × List UInt8)) :=
    ends_bind hcli fun _ _ => ends_bind hin fun _ _ => ends_ok _
  unfold AnalyzerEnv.cliTokenize
  split
  · rename_i analyzer format input h
    simp only [bind_eq_ok, pure_eq_ok] at h
    obtain ⟨a, ha, inp, -, h⟩ := h
    cases h
    unfold AnalyzerEnv.cliAnalyzer at ha
    simp only [bind_eq_ok, pure_eq_ok] at ha
    obtain ⟨d, -, u, -, fmt, -, cfs, hc, tfs, ht, ha⟩ := ha
    cases ha
    have hcf : ∀ f ∈ cfs, ∀ s, ReturnsOrPanics (f s) := by
      intro f hf s
      obtain ⟨flag, -, hflag⟩ := mapM_mem_source hc hf
      unfold AnalyzerEnv.charFlag at hflag
      simp only [bind_eq_ok] at hflag
      obtain ⟨⟨k, j⟩, -, hflag⟩ := hflag
      exact charFilter_rp hflag s
    have htf : ∀ f ∈ tfs, ∀ ts, ReturnsOrPanics (f ts) := by
      intro f hf s
      obtain ⟨flag, -, hflag⟩ := mapM_mem_source ht hf
      unfold AnalyzerEnv.tokenFlag at hflag
      simp only [bind_eq_ok] at hflag
      obtain ⟨⟨k, j⟩, -, hflag⟩ := hflag
      exact tokenFilter_rp hflag s
    have hloop : ∀ ls, Ends (cliLoop (Analyzer.analyze ⟨cfs, ⟨d, u, args.mode⟩, tfs⟩) format pretty ls).2 := by
      intro ls
      induction ls with
      | nil => exact ends_ok _
      | cons l ls ih =>
        unfold cliLoop
        split
        · exact ends_err _
        · split
          · rename_i text _ _ e he
            rcases analyze_outcomes (a := ⟨cfs, ⟨d, u, args.mode⟩, tfs⟩) hcf htf (trim text) with h | h
            · have := h.ends; rw [he] at this; exact fun h => this (by cases h; rfl)
            · rw [he] at h; cases h; exact ends_err _
          · rename_i toks _
            have : ∃ o, format.output pretty toks = (o, .ok ()) := by
              cases format with
              | mecab => exact ⟨_, c53_mecab pretty toks⟩
              | json => exact ⟨_, rfl⟩
              | wakati =>
                by_cases h : toks = []
                · rw [h]; exact ⟨_, (c53_wakati_empty_fails pretty).1⟩
                · exact ⟨_, c53_wakati_partial pretty toks h⟩
            obtain ⟨o, ho⟩ := this
            rw [ho]
            exact ih
    exact hloop _
  · rename_i e h
    intro he
    rw [h] at hall
    exact hall (by cases he; rfl)

/-- The hypothesis holds of the environment of C69, and with any files in it. -/
example (files : Path → Option (List UInt8)) (path : Path) (stdin : List UInt8) :
    let env := { Ac.env with load := { Ac.env.load with files := files } }
    Ends (env.fromFile path) ∧ Ends (env.cliTokenize (fun _ => []) stdin Ac.args).2 :=
  ⟨(c103_file _ (fun _ => ends_ok _) path).1, c103_command _ (fun _ => ends_ok _) _ stdin _⟩

end Verif.Props
