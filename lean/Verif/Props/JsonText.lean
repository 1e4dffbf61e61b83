import Verif.Proofs.JsonText
import Verif.Props.AnalyzerConfig
/-! Properties of JSON as text: what the command line prints, and what configuration files and arguments mean: C83, C84. -/
namespace Verif.Props
open Verif.Model Verif.Spec

/-! ### C83 The JSON output can be read back -/

/-- Byte offsets fit in a machine word, as all offsets of texts do. -/
def WordSized (tokens : List FToken) : Prop := ∀ t ∈ tokens, t.byteStart < 2 ^ 64 ∧ t.byteEnd < 2 ^ 64

theorem plain_strings (ds : List Str) : PlainList (ds.map .str) := by
  induction ds with
  | nil => trivial
  | cons d ds ih => exact ⟨trivial, ih⟩

theorem tokensDoc_plain {tokens : List FToken} (h : WordSized tokens) : Json.Plain (tokensDoc tokens) := by
  unfold tokensDoc
  simp only [Json.Plain]
  induction tokens with
  | nil => trivial
  | cons t ts ih =>
    have ht := h t (by simp)
    have hid := t.wordId.id.toNat_lt
    refine ⟨?_, ih fun x hx => h x (by simp [hx])⟩
    simp only [Json.Plain, PlainPairs, PlainList, and_true]
    refine ⟨⟨by omega, by omega⟩, ⟨by omega, by omega⟩, plain_strings _, trivial, by omega, ?_⟩
    have : t.wordId.id.toNat < 2 ^ 32 := hid
    omega

theorem json_output (pretty : Json → Str) (tokens : List FToken) : Format.output .json pretty tokens = (pretty (tokensDoc tokens) ++ "\n".toList, .ok ()) := rfl

/-- C83: in the JSON format, one line of input is printed as a text and a line end. By the grammar of JSON (RFC 8259) the text is a document, and it is no other document than the list of the tokens with their byte ranges,
details, texts and word ids; whatever characters the texts and details contain. -/
theorem c83_document (tokens : List FToken) (h : WordSized tokens) (finite : Str → Prop) :
    ∃ text, Format.output .json prettyJson tokens = (text ++ "\n".toList, .ok ()) ∧ ∀ j, JsonText.Doc finite text j ↔ j = tokensDoc tokens := by
  have hd := doc_of_value (jsonText_value (finite := finite) pretty_ok 0 (tokensDoc tokens) (tokensDoc_plain h))
  exact ⟨_, json_output _ _, fun j => ⟨fun hj => doc_unique hj hd, fun hj => hj ▸ hd⟩⟩

/-- What is shown of the tokens. -/
def shown (tokens : List FToken) : List (Str × List Str × Nat × Nat × WordId) := tokens.map fun t => (t.text, t.details, t.byteStart, t.byteEnd, t.wordId)

theorem strings_injective {ds es : List Str} (h : ds.map Json.str = es.map Json.str) : ds = es := by
  induction ds generalizing es with
  | nil => cases es with
    | nil => rfl
    | cons e es => simp at h
  | cons d ds ih => cases es with
    | nil => simp at h
    | cons e es =>
      simp only [List.map_cons, List.cons.injEq, Json.str.injEq] at h
      rw [h.1, ih h.2]

theorem tokensDoc_injective {ts us : List FToken} (h : tokensDoc ts = tokensDoc us) : shown ts = shown us := by
  unfold tokensDoc at h
  simp only [Json.arr.injEq] at h
  unfold shown
  induction ts generalizing us with
  | nil => cases us with
    | nil => rfl
    | cons u us => simp at h
  | cons t ts ih => cases us with
    | nil => simp at h
    | cons u us =>
      simp only [List.map_cons, List.cons.injEq, Json.obj.injEq, Prod.mk.injEq, Json.int.injEq, Json.arr.injEq, Json.str.injEq, Json.bool.injEq, true_and, and_true, Int.natCast_inj] at h
      obtain ⟨⟨h1, h2, h3, h4, h5, h6⟩, h7⟩ := h
      rw [List.map_cons, List.map_cons, ih h7, h1, h2, strings_injective h3, h4]
      have : t.wordId = u.wordId := by
        cases ht : t.wordId; cases hu : u.wordId
        rw [ht, hu] at h5 h6
        simp only [UInt32.toNat_inj] at h5 h6
        rw [h5, h6]
      rw [this]

/-- The documents of a list that are printed one after another can be told from the whole. -/
theorem stream_injective {js ks : List Json} (hj : ∀ j ∈ js, Json.Plain j) (hk : ∀ j ∈ ks, Json.Plain j)
    (h : js.flatMap (fun j => prettyJson j ++ "\n".toList) = ks.flatMap (fun j => prettyJson j ++ "\n".toList)) : js = ks := by
  have hv : ∀ j, Json.Plain j → JsonText.Value (fun t => (fun _ : Str => false) t = true) (prettyJson j) j := fun j hj => jsonText_value pretty_ok 0 j hj
  have hread : ∀ j r n d, Json.Plain j → (prettyJson j).length + 1 ≤ n → Json.depth j ≤ d - 1 → jsonValue (fun _ => false) n d (prettyJson j ++ "\n".toList ++ r) = some (j, "\n".toList ++ r) := by
    intro j r n d hj hn hd
    have := value_complete (hv j hj) (w := []) (r := "\n".toList ++ r) (n := n) (d := d) space_nil ?_ hn hd
    · simpa using this
    · intro c hc
      simp at hc
      subst hc
      exact .inl (by decide)
  induction js generalizing ks with
  | nil =>
    cases ks with
    | nil => rfl
    | cons k ks => simp at h
  | cons j js ih =>
    cases ks with
    | nil => simp at h
    | cons k ks =>
      rw [List.flatMap_cons, List.flatMap_cons] at h
      have h1 := hread j (js.flatMap (fun j => prettyJson j ++ "\n".toList)) ((prettyJson j).length + (prettyJson k).length + 1) (Json.depth j + Json.depth k + 1) (hj j (by simp)) (by omega) (by omega)
      have h2 := hread k (ks.flatMap (fun j => prettyJson j ++ "\n".toList)) ((prettyJson j).length + (prettyJson k).length + 1) (Json.depth j + Json.depth k + 1) (hk k (by simp)) (by omega) (by omega)
      rw [h, h2] at h1
      simp only [Option.some.injEq, Prod.mk.injEq, List.append_cancel_left_eq] at h1
      rw [h1.1, ih (fun x hx => hj x (by simp [hx])) (fun x hx => hk x (by simp [hx])) h1.2.symm]

theorem loop_json {analyze : Str → R (List FToken)} {ls : List (List UInt8)} {o : Str} (h : cliLoop analyze .json prettyJson ls = (o, .ok ())) :
    ∃ tss, List.Forall₂ (fun l ts => ∃ text t, l = utf8 text ∧ Trimmed text t ∧ analyze t = .ok ts) ls tss ∧ o = (tss.map tokensDoc).flatMap (fun j => prettyJson j ++ "\n".toList) := by
  induction ls generalizing o with
  | nil =>
    simp only [cliLoop, Prod.mk.injEq] at h
    exact ⟨[], .nil, by simp [h.1.symm]⟩
  | cons l ls ih =>
    unfold cliLoop at h
    cases hd : decodeUtf8 l with
    | none => rw [hd] at h; simp at h
    | some text =>
      rw [hd] at h
      dsimp only at h
      cases ha : analyze (trim text) with
      | error e => rw [ha] at h; simp at h
      | ok ts =>
        rw [ha] at h
        dsimp only at h
        rw [json_output, then_ok] at h
        obtain ⟨h1, h2⟩ := Prod.mk.inj h
        obtain ⟨tss, i1, i2⟩ := ih (o := (cliLoop analyze .json prettyJson ls).1) (Prod.ext rfl h2)
        refine ⟨ts :: tss, .cons ⟨text, trim text, decodeUtf8_eq_some.mp hd, trim_trimmed text, ha⟩ i1, ?_⟩
        rw [← h1, i2]
        simp

/-- C83: from everything that a run has printed in the JSON format, the number of lines and the tokens of each line can be recovered: if two runs, of any analyzers on any inputs, end well and print the same, then
their inputs have as many lines, and the tokens of the lines agree in their texts, details, byte ranges and word ids. -/
theorem c83_session (analyze analyze' : Str → R (List FToken)) (input input' : List UInt8) (lines lines' : List (List UInt8)) (hl : Lines 0x0A input lines) (hl' : Lines 0x0A input' lines')
    (hw : ∀ t ts, analyze t = .ok ts → WordSized ts) (hw' : ∀ t ts, analyze' t = .ok ts → WordSized ts) (o : Str)
    (h : cliLoop analyze .json prettyJson (readLines input) = (o, .ok ())) (h' : cliLoop analyze' .json prettyJson (readLines input') = (o, .ok ())) :
    ∃ tss uss, List.Forall₂ (fun l ts => ∃ text t, l = utf8 text ∧ Trimmed text t ∧ analyze t = .ok ts) lines tss ∧
      List.Forall₂ (fun l ts => ∃ text t, l = utf8 text ∧ Trimmed text t ∧ analyze' t = .ok ts) lines' uss ∧ tss.map shown = uss.map shown := by
  rw [readLines_lines hl] at h
  rw [readLines_lines hl'] at h'
  obtain ⟨tss, h1, h2⟩ := loop_json h
  obtain ⟨uss, h3, h4⟩ := loop_json h'
  have plain : ∀ {analyze : Str → R (List FToken)} {lines : List (List UInt8)} {tss : List (List FToken)}, (∀ t ts, analyze t = .ok ts → WordSized ts) →
      List.Forall₂ (fun l ts => ∃ text t, l = utf8 text ∧ Trimmed text t ∧ analyze t = .ok ts) lines tss → ∀ j ∈ tss.map tokensDoc, Json.Plain j := by
    intro analyze lines tss hw hf
    induction hf with
    | nil => simp
    | cons hh _ ih =>
      obtain ⟨_, t, _, _, ht⟩ := hh
      simp only [List.map_cons, List.mem_cons, forall_eq_or_imp]
      exact ⟨tokensDoc_plain (hw t _ ht), ih⟩
  have e := stream_injective (plain hw h1) (plain hw' h3) (h2.symm.trans h4)
  refine ⟨tss, uss, h1, h3, ?_⟩
  clear h1 h2 h3 h4
  induction tss generalizing uss with
  | nil => cases uss with
    | nil => rfl
    | cons u us => simp at e
  | cons t ts ih => cases uss with
    | nil => simp at e
    | cons u us =>
      simp only [List.map_cons, List.cons.injEq] at e ⊢
      exact ⟨tokensDoc_injective e.1, ih us e.2⟩

/-- Non-vacuity of C83: tokens with a quotation mark, a backslash, a tab and a control character in their texts and details, and what is printed for them. -/
example : WordSized [Tf.tok "\"\\" 0 2 7 ["\t\x01", "猫"], Tf.tok "" 2 2 8 []] ∧
    Format.output .json prettyJson [{ Tf.tok "\"\\" 0 2 7 ["\t\x01", "猫"] with wordId := ⟨70, true⟩ }] =
      ("[\n  {\n    \"byte_end\": 2,\n    \"byte_start\": 0,\n    \"details\": [\n      \"\\t\\u0001\",\n      \"猫\"\n    ],\n    \"text\": \"\\\"\\\\\",\n    \"word_id\": [\n      70,\n      true\n    ]\n  }\n]\n".toList, .ok ()) ∧
    Format.output .json prettyJson [] = ("[]\n".toList, .ok ()) := by
  refine ⟨?_, by decide +kernel, by decide +kernel⟩
  intro t ht
  simp only [List.mem_cons, List.not_mem_nil, or_false] at ht
  rcases ht with rfl | rfl <;> decide

/-- Non-vacuity of C83: a run on two lines. -/
example : ∃ o, cliLoop (fun s => .ok [Tf.tok (String.ofList s) 0 1 0 ["UNK"]]) .json prettyJson (readLines (utf8 "a\n\n".toList)) = (o, .ok ()) ∧
    Lines 0x0A (utf8 "a\n\n".toList) [utf8 "a\n".toList, utf8 "\n".toList] :=
  ⟨_, rfl, .cons (l := [0x61]) (by decide) (.cons (l := []) (by decide) .nil)⟩

/-! ### C84 Configuration files and arguments are read as JSON -/

/-- C84: a file of bytes is read as a document exactly if it is UTF-8, its text is this document by the grammar of JSON (RFC 8259), and the document has at most 127 levels of arrays and objects. -/
theorem c84_read (env : AnalyzerEnv) (data : List UInt8) (j : Json) :
    env.json data = some j ↔ ∃ text, data = utf8 text ∧ JsonText.Doc (fun t => env.finite t = true) text j ∧ Json.depth j ≤ 127 := parseJsonBytes_iff

/-- C84: a text has at most one meaning as JSON. -/
theorem c84_unique (finite : Str → Prop) (text : Str) (j j' : Json) (h : JsonText.Doc finite text j) (h' : JsonText.Doc finite text j') : j = j' := doc_unique h h'

/-- C84: how a document is laid out and which characters are escaped does not matter, nor does the order of members: two configuration files with the same document give the same analyzer or the same error. -/
theorem c84_layout (env : AnalyzerEnv) (path path' : Path) (text text' : Str) (j j' : Json) (h : env.load.files path = some (utf8 text)) (h' : env.load.files path' = some (utf8 text'))
    (hj : JsonText.Read env.finite text j) (hj' : JsonText.Read env.finite text' j') (hs : SameDoc j j') : env.fromFile path = env.fromFile path' :=
  c67_same env path path' _ _ j j' h h' ⟨text, rfl, hj⟩ ⟨text', rfl, hj'⟩ hs

/-- C84: a file that is not UTF-8, whose text is not JSON, or that is nested more deeply, is a deserialization error; as the arguments of a flag, such a text is a content error. -/
theorem c84_rejected (env : AnalyzerEnv) (path : Path) (data : List UInt8) (h : env.load.files path = some data) :
    ((∀ text, data ≠ utf8 text) → env.fromFile path = .error (.err .deserialize)) ∧
    (∀ text, data = utf8 text → (∀ j, ¬ JsonText.Doc (fun t => env.finite t = true) text j) → env.fromFile path = .error (.err .deserialize)) ∧
    (∀ text j, data = utf8 text → JsonText.Doc (fun t => env.finite t = true) text j → 127 < Json.depth j → env.fromFile path = .error (.err .deserialize)) ∧
    (∀ kind text, ':' ∉ kind → (∀ j, ¬ JsonText.Read env.finite text j) → env.charFlag (kind ++ ':' :: text) = .error (.err .content) ∧ env.tokenFlag (kind ++ ':' :: text) = .error (.err .content)) := by
  have inj : ∀ {a b : Str}, utf8 a = utf8 b → a = b := by
    intro a b e
    have := decodeUtf8_utf8 a
    rw [e, decodeUtf8_utf8] at this
    exact (Option.some.inj this).symm
  have key' : (∀ j, ¬ JsonText.File env.finite data j) → env.fromFile path = .error (.err .deserialize) := by
    intro hn
    have hj : env.json data = none := parseJsonBytes_none.mpr hn
    unfold AnalyzerEnv.fromFile LoadEnv.readFile AnalyzerEnv.configValue; simp only [h, bind_ok, hj]; rfl
  refine ⟨fun hn => key' ?_, fun text ht hn => key' ?_, fun text j ht hd hdeep => key' ?_, fun kind text hk hn => ?_⟩
  · rintro j ⟨t, ht, _⟩; exact hn t ht
  · rintro j ⟨t, rfl, hr⟩; exact hn j (inj ht ▸ hr.1)
  · rintro j' ⟨t, rfl, hr⟩
    have := doc_unique hd (inj ht ▸ hr.1)
    have := hr.2
    subst j'
    omega
  · refine (c68_flag env _).2 ?_
    rintro ⟨kind', args⟩ ⟨hk', text', j, he, hj, -, -⟩
    dsimp only at hk' he
    have : kind = kind' ∧ text = text' := by
      clear hj hn key'
      induction kind generalizing kind' with
      | nil => cases kind' with
        | nil => simpa using he
        | cons c kind' =>
          simp only [List.nil_append, List.cons_append, List.cons.injEq] at he
          exact absurd (List.mem_cons.mpr (.inl he.1)) hk'
      | cons c kind ih => cases kind' with
        | nil =>
          simp only [List.nil_append, List.cons_append, List.cons.injEq] at he
          exact absurd (List.mem_cons.mpr (.inl he.1.symm)) hk
        | cons c' kind' =>
          simp only [List.cons_append, List.cons.injEq] at he
          obtain ⟨h1, h2⟩ := ih (by simp at hk; exact hk.2) kind' (by simp at hk'; exact hk'.2) he.2
          exact ⟨by rw [he.1, h1], h2⟩
    exact hn j (this.2 ▸ hj)

/-- C84: writing the part of a configuration as JSON text and reading it again, as is done with the tokenizer's part, changes nothing, as long as all its numbers are integers of 64 bits. -/
theorem c84_rewritten (env : AnalyzerEnv) (j : Json) (h : Json.Plain j) (hd : Json.depth j ≤ 127) : env.json (utf8 (compactJson j)) = some j ∧ env.json (utf8 (prettyJson j)) = some j :=
  ⟨parseJsonBytes_iff.mpr ⟨_, rfl, doc_of_value (jsonText_value compact_ok 0 j h), hd⟩, parseJsonBytes_iff.mpr ⟨_, rfl, doc_of_value (jsonText_value pretty_ok 0 j h), hd⟩⟩

namespace Jt
/-- An empty array in `n` arrays, and its text. -/
def nest : Nat → Json
  | 0 => .arr []
  | n + 1 => .arr [nest n]
def nestText (n : Nat) : Str := List.replicate (n + 1) '[' ++ List.replicate (n + 1) ']'

theorem nest_value (finite : Str → Prop) (n : Nat) : JsonText.Value finite (nestText n) (nest n) ∧ Json.depth (nest n) = n + 1 := by
  induction n with
  | zero => exact ⟨.emptyArray space_nil, rfl⟩
  | succ n ih =>
    have h := JsonText.Value.array (JsonText.Elements.one space_nil ih.1 space_nil)
    refine ⟨?_, by simp [nest, Json.depth, depthList, ih.2]⟩
    have e : nestText (n + 1) = '[' :: ([] ++ nestText n ++ []) ++ [']'] := by
      unfold nestText
      rw [List.replicate_succ (n := n + 1), List.replicate_succ' (n := n + 1)]
      simp
    rw [e]
    exact h
end Jt

/-- Non-vacuity of C84: documents of any depth, with their texts; of these, the one of 127 levels is read and the one of 128 is not. A text with white space, an escaped character, a pair of surrogates, and numbers. -/
example (env : AnalyzerEnv) : (∀ n, JsonText.Doc (fun t => env.finite t = true) (Jt.nestText n) (Jt.nest n) ∧ Json.depth (Jt.nest n) = n + 1) ∧
    env.json (utf8 (Jt.nestText 126)) = some (Jt.nest 126) ∧ env.json (utf8 (Jt.nestText 127)) = none ∧
    parseJson (fun t => t == "1.5e3".toList) " [\"\\u732B\\ud83d\\ude00/\\/\", -9223372036854775808, 18446744073709551615, 1.5e3]\n".toList =
      some (.arr [.str "猫😀//".toList, .int (-9223372036854775808), .int 18446744073709551615, .float]) ∧
    parseJson (fun _ => true) "[1,]".toList = none ∧ parseJson (fun _ => true) "01".toList = none ∧ parseJson (fun _ => true) "\"\\ud83d\"".toList = none ∧ parseJson (fun _ => true) "-0".toList = some .float := by
  refine ⟨fun n => ⟨doc_of_value (Jt.nest_value _ n).1, (Jt.nest_value (fun _ => True) n).2⟩, ?_, ?_, by decide +kernel, by decide +kernel, by decide +kernel, by decide +kernel, by decide +kernel⟩
  · exact (c84_read env _ _).mpr ⟨_, rfl, doc_of_value (Jt.nest_value _ 126).1, by rw [(Jt.nest_value (fun _ => True) 126).2]⟩
  · refine parseJsonBytes_none.mpr ?_
    rintro j ⟨t, ht, hr, hd⟩
    have := decodeUtf8_utf8 (Jt.nestText 127)
    rw [ht, decodeUtf8_utf8] at this
    cases this
    rw [doc_unique hr (doc_of_value (Jt.nest_value _ 127).1), (Jt.nest_value (fun _ => True) 127).2] at hd
    omega

/-- Non-vacuity of C84: the tokenizer's part of the sample configuration; the document again without white space. -/
example : Json.Plain Ac.tokenizer ∧ Json.depth Ac.tokenizer ≤ 127 ∧ JsonText.Read (fun _ => false) Ac.text.toList Ac.doc ∧ JsonText.Read (fun _ => false) (compactJson Ac.doc) Ac.doc ∧
    compactJson Ac.doc ≠ Ac.text.toList := by
  refine ⟨by simp [Ac.tokenizer, Ac.o, Ac.s, Json.Plain, PlainPairs], by decide, parseJson_read.mp (by decide +kernel), parseJson_read.mp (by decide +kernel), by decide +kernel⟩

end Verif.Props
