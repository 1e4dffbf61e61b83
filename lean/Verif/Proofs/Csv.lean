import Verif.Spec.Csv
import Verif.Proofs.Details
import Verif.Proofs.Config
/-! Helper lemmas for the CSV reader. -/
namespace Verif.Model
open Verif.Spec

/-- The dialect on characters. -/
def csvSymC (c : Char) : CsvSym :=
  if c = ',' then .comma else if c = '"' then .quote else if c = '\r' ∨ c = '\n' then .term else .other

/-! ### Bytes and characters -/

theorem ascii_mem_utf8EncodeChar {a c : Char} {x : UInt8} (ha : String.utf8EncodeChar a = [x]) (hx : x.IsUTF8FirstByte) (h : x ∈ String.utf8EncodeChar c) : c = a := by
  obtain ⟨i, hi, h0⟩ := List.mem_iff_getElem.mp h
  have hf : ((String.utf8EncodeChar c)[i]).IsUTF8FirstByte := by rw [h0]; exact hx
  rw [UInt8.isUTF8FirstByte_getElem_utf8EncodeChar] at hf
  subst hf
  have hp : utf8 [a] <+: utf8 [c] := by
    cases he : String.utf8EncodeChar c with
    | nil => exact absurd he String.utf8EncodeChar_ne_nil
    | cons b bs =>
      simp only [he, List.getElem_cons_zero] at h0
      subst h0
      exact ⟨bs, by simp [utf8, he, ha]⟩
  have := prefix_of_utf8_prefix hp
  rw [List.cons_prefix_cons] at this
  exact this.1.symm

theorem csvSym_other {c : Char} (hc : csvSymC c = .other) : ∀ b ∈ String.utf8EncodeChar c, csvSym b = .other := by
  intro b hb
  unfold csvSym
  have h1 : b ≠ 44 := by rintro rfl; have := ascii_mem_utf8EncodeChar (a := ',') (by decide) (by decide) hb; subst this; exact absurd hc (by decide)
  have h2 : b ≠ 34 := by rintro rfl; have := ascii_mem_utf8EncodeChar (a := '"') (by decide) (by decide) hb; subst this; exact absurd hc (by decide)
  have h3 : b ≠ 13 := by rintro rfl; have := ascii_mem_utf8EncodeChar (a := '\r') (by decide) (by decide) hb; subst this; exact absurd hc (by decide)
  have h4 : b ≠ 10 := by rintro rfl; have := ascii_mem_utf8EncodeChar (a := '\n') (by decide) (by decide) hb; subst this; exact absurd hc (by decide)
  simp [h1, h2, h3, h4]

def CsvState.utf8 (s : CsvState Char) : CsvState UInt8 := ⟨s.pos, Model.utf8 s.field, s.fields.map Model.utf8, s.records.map (·.map Model.utf8)⟩

/-- Where ordinary content leads to. -/
def CsvPos.content : CsvPos → CsvPos
  | .quoted => .quoted
  | _ => .inField

theorem step_other {α : Type} {sym : α → CsvSym} (s : CsvState α) {c : α} (h : sym c = .other) : s.step sym c = s.push s.pos.content c := by
  unfold CsvState.step
  cases s.pos <;> simp [h, CsvPos.content]

theorem foldl_other {α : Type} {sym : α → CsvSym} : ∀ (cs : List α) (s : CsvState α), cs ≠ [] → (∀ c ∈ cs, sym c = .other) →
    cs.foldl (CsvState.step sym) s = { s with pos := s.pos.content, field := s.field ++ cs }
  | [], _, h, _ => absurd rfl h
  | [c], s, _, h => by simp [step_other s (h c (by simp)), CsvState.push]
  | c :: c' :: cs, s, _, h => by
    rw [List.foldl_cons, step_other s (h c (by simp)), foldl_other (c' :: cs) _ (by simp) (fun x hx => h x (by simp [hx]))]
    cases hp : s.pos <;> simp [CsvState.push, CsvPos.content]

theorem step_utf8 (s : CsvState Char) (c : Char) : (String.utf8EncodeChar c).foldl (CsvState.step csvSym) s.utf8 = (s.step csvSymC c).utf8 := by
  have special : ∀ b : UInt8, String.utf8EncodeChar c = [b] → csvSym b = csvSymC c → (String.utf8EncodeChar c).foldl (CsvState.step csvSym) s.utf8 = (s.step csvSymC c).utf8 := by
    intro b hb hs
    rw [hb, List.foldl_cons, List.foldl_nil]
    obtain ⟨pos, field, fields, records⟩ := s
    have hu : Model.utf8 [c] = [b] := by simp [Model.utf8, hb]
    unfold CsvState.step
    cases pos <;> cases hk : csvSymC c <;> simp [CsvState.utf8, hs, hk, CsvState.push, CsvState.endField, CsvState.endRecord, hu]
  by_cases h1 : c = ','
  · subst h1; exact special 44 (by decide) (by decide)
  by_cases h2 : c = '"'
  · subst h2; exact special 34 (by decide) (by decide)
  by_cases h3 : c = '\r'
  · subst h3; exact special 13 (by decide) (by decide)
  by_cases h4 : c = '\n'
  · subst h4; exact special 10 (by decide) (by decide)
  have ho : csvSymC c = .other := by simp [csvSymC, h1, h2, h3, h4]
  rw [foldl_other _ _ String.utf8EncodeChar_ne_nil (csvSym_other ho), step_other s ho]
  simp [CsvState.utf8, CsvState.push, Model.utf8]

theorem foldl_utf8 (t : Str) : ∀ s : CsvState Char, (utf8 t).foldl (CsvState.step csvSym) s.utf8 = (t.foldl (CsvState.step csvSymC) s).utf8 := by
  induction t with
  | nil => intro s; rfl
  | cons c t ih =>
    intro s
    have : utf8 (c :: t) = String.utf8EncodeChar c ++ utf8 t := by simp [utf8]
    rw [this, List.foldl_append, step_utf8, ih, List.foldl_cons]

theorem csvRecords_utf8 (t : Str) : csvRecords csvSym (utf8 t) = (csvRecords csvSymC t).map (·.map utf8) := by
  unfold csvRecords
  have h := foldl_utf8 t ⟨.startRecord, [], [], []⟩
  have e : CsvState.utf8 ⟨.startRecord, [], [], []⟩ = (⟨.startRecord, [], [], []⟩ : CsvState UInt8) := rfl
  rw [e] at h
  rw [h]
  generalize t.foldl (CsvState.step csvSymC) ⟨.startRecord, [], [], []⟩ = s
  obtain ⟨pos, field, fields, records⟩ := s
  cases pos <;> simp [CsvState.finish, CsvState.utf8, CsvState.endRecord]

/-! ### Records have fields -/

theorem csvRecords_ne_nil {α : Type} (sym : α → CsvSym) (input : List α) : ∀ r ∈ csvRecords sym input, r ≠ [] := by
  unfold csvRecords
  have key : ∀ (input : List α) (s : CsvState α), (∀ r ∈ s.records, r ≠ []) → ∀ r ∈ (input.foldl (CsvState.step sym) s).records, r ≠ [] := by
    intro input
    induction input with
    | nil => intro s h; exact h
    | cons c input ih =>
      intro s h
      refine ih _ ?_
      have he : ∀ r ∈ s.endRecord.records, r ≠ [] := by
        intro r hr
        simp only [CsvState.endRecord, List.mem_append, List.mem_singleton] at hr
        rcases hr with hr | rfl
        · exact h r hr
        · simp
      unfold CsvState.step
      cases s.pos <;> cases sym c <;> simp only [CsvState.push, CsvState.endField] <;> first | exact h | exact he
  have h := key input ⟨.startRecord, [], [], []⟩ (by simp)
  generalize input.foldl (CsvState.step sym) ⟨.startRecord, [], [], []⟩ = s at h
  unfold CsvState.finish
  have he : ∀ r ∈ s.endRecord.records, r ≠ [] := by
    intro r hr
    simp only [CsvState.endRecord, List.mem_append, List.mem_singleton] at hr
    rcases hr with hr | rfl
    · exact h r hr
    · simp
  cases s.pos <;> first | exact h | exact he

theorem csvRow_utf8 (row : Row) : csvRow (row.fields.map utf8) = some row := by
  have h : (row.fields.map utf8).mapM decodeUtf8 = some row.fields := by
    induction row.fields with
    | nil => rfl
    | cons f fs ih => rw [List.map_cons, List.mapM_cons, decodeUtf8_utf8, ih]; rfl
  unfold csvRow
  rw [h]
  rfl

theorem mapM_csvRow (rows : List Row) : ((rows.map Row.fields).map (·.map utf8)).mapM csvRow = some rows := by
  induction rows with
  | nil => rfl
  | cons r rows ih => rw [List.map_cons, List.map_cons, List.mapM_cons, csvRow_utf8, ih]; rfl

theorem rows_of_records {rs : List (List Str)} (h : ∀ r ∈ rs, r ≠ []) : ∃ rows : List Row, rows.map Row.fields = rs := by
  induction rs with
  | nil => exact ⟨[], rfl⟩
  | cons r rs ih =>
    obtain ⟨rows, hr⟩ := ih fun x hx => h x (by simp [hx])
    cases r with
    | nil => exact absurd rfl (h [] (by simp))
    | cons f fs => exact ⟨⟨f, fs⟩ :: rows, by simp [Row.fields, ← hr]⟩

theorem stripBom_text {bytes : List UInt8} {t : Str} (h : FileText bytes t) : stripBom bytes = utf8 t := by
  rcases h with rfl | ⟨rfl, h⟩
  · rfl
  · unfold stripBom
    split
    · rename_i bs he
      exfalso
      have hp : utf8 ['\uFEFF'] <+: utf8 t := ⟨bs, by rw [he]; rfl⟩
      have := prefix_of_utf8_prefix hp
      obtain ⟨u, hu⟩ := this
      exact h (by rw [← hu]; rfl)
    · rfl

theorem sameLengths_iff {rows : List Row} : sameLengths rows = true ↔ Rectangular rows := by
  cases rows with
  | nil => simp [sameLengths, Rectangular]
  | cons r rs =>
    simp only [sameLengths, Rectangular, List.all_eq_true, beq_iff_eq]
    constructor
    · intro h a ha b hb
      have e : ∀ x ∈ r :: rs, x.fields.length = r.fields.length := by
        intro x hx
        rcases List.mem_cons.mp hx with rfl | hx
        · rfl
        · exact h x hx
      rw [e a ha, e b hb]
    · intro h x hx
      exact h x (by simp [hx]) r (by simp)

theorem readCsv_text {flexible : Bool} {bytes : List UInt8} {t : Str} (h : FileText bytes t) {rows : List Row} (hr : csvRecords csvSymC t = rows.map Row.fields) :
    readCsv flexible bytes = if flexible || sameLengths rows then some rows else none := by
  unfold readCsv
  rw [stripBom_text h, csvRecords_utf8, hr, mapM_csvRow]

/-! ### Written records are read -/

theorem step_line_end {s : CsvState Char} {c : Char} (h : LineEnd c) (hp : s.pos ≠ .quoted) :
    s.step csvSymC c = if s.pos = .startRecord then s else s.endRecord := by
  have hs : csvSymC c = .term := by rcases h with rfl | rfl <;> decide
  unfold CsvState.step
  cases hk : s.pos <;> simp_all

theorem step_comma {s : CsvState Char} (hp : s.pos ≠ .quoted) : s.step csvSymC ',' = s.endField := by
  have hs : csvSymC ',' = .comma := by decide
  unfold CsvState.step
  cases hk : s.pos <;> simp_all

theorem foldl_inField : ∀ (v : Str) (s : CsvState Char), s.pos = .inField → (∀ c ∈ v, c ≠ ',' ∧ c ≠ '\r' ∧ c ≠ '\n') →
    v.foldl (CsvState.step csvSymC) s = { s with field := s.field ++ v }
  | [], s, _, _ => by simp
  | c :: v, s, hp, h => by
    have hc := h c (by simp)
    have : s.step csvSymC c = s.push .inField c := by
      unfold CsvState.step csvSymC
      by_cases hq : c = '"' <;> simp [hp, hc, hq]
    rw [List.foldl_cons, this, foldl_inField v _ rfl (fun x hx => h x (by simp [hx]))]
    simp [CsvState.push, ← hp]

theorem foldl_quoted : ∀ (v : Str) (s : CsvState Char), s.pos = .quoted →
    (v.flatMap fun c => if c = '"' then ['"', '"'] else [c]).foldl (CsvState.step csvSymC) s = { s with field := s.field ++ v }
  | [], s, _ => by simp
  | c :: v, s, hp => by
    have : (if c = '"' then ['"', '"'] else [c]).foldl (CsvState.step csvSymC) s = s.push .quoted c := by
      by_cases hq : c = '"'
      · subst hq
        have hs : csvSymC '"' = .quote := by decide
        simp [CsvState.step, hp, hs, CsvState.push]
      · have hs : csvSymC c ≠ .quote := by unfold csvSymC; simp only [hq, if_false]; split <;> (try split) <;> simp
        simp only [hq, if_false, List.foldl_cons, List.foldl_nil]
        unfold CsvState.step
        cases hk : csvSymC c <;> simp_all
    rw [List.flatMap_cons, List.foldl_append, this, foldl_quoted v _ rfl]
    simp [CsvState.push, ← hp]

theorem foldl_field {v t : Str} (h : FieldText v t) {s : CsvState Char} (hp : s.pos = .startRecord ∨ s.pos = .startField) (hf : s.field = []) :
    ∃ p, t.foldl (CsvState.step csvSymC) s = { s with pos := p, field := v } ∧ p ≠ .quoted ∧ (t ≠ [] → p ≠ .startRecord) ∧ (s.pos = .startField → p ≠ .startRecord) := by
  cases h with
  | plain h1 h2 =>
    cases v with
    | nil => exact ⟨s.pos, by obtain ⟨_, _, _, _⟩ := s; simp only at hf; subst hf; rfl, by rcases hp with h | h <;> simp [h], by simp, by intro h; simp [h]⟩
    | cons c v =>
      have hc := h1 c (by simp)
      have hq : c ≠ '"' := by intro e; exact h2 (by simp [e])
      have ho : csvSymC c = .other := by simp [csvSymC, hc, hq]
      have hi : s.pos.content = .inField := by rcases hp with h | h <;> simp [h, CsvPos.content]
      refine ⟨.inField, ?_, by simp, by simp, by simp⟩
      rw [List.foldl_cons, step_other s ho, hi, foldl_inField v _ rfl (fun x hx => h1 x (by simp [hx]))]
      simp [CsvState.push, hf]
  | quoted =>
    have hs : csvSymC '"' = .quote := by decide
    have h0 : s.step csvSymC '"' = { s with pos := .quoted } := by unfold CsvState.step; rcases hp with h | h <;> simp [h, hs]
    refine ⟨.quoteEnd, ?_, by simp, by simp, by simp⟩
    rw [List.cons_append, List.foldl_cons, h0, List.foldl_append, foldl_quoted v _ rfl]
    simp [CsvState.step, hs, hf]

theorem foldl_fields {r : List Str} {t : Str} (h : FieldsText r t) : ∀ {s : CsvState Char}, (s.pos = .startRecord ∨ s.pos = .startField) → s.field = [] →
    ∃ p f fs, t.foldl (CsvState.step csvSymC) s = ⟨p, f, fs, s.records⟩ ∧ fs ++ [f] = s.fields ++ r ∧ p ≠ .quoted ∧ (t ≠ [] → p ≠ .startRecord) ∧ (s.pos = .startField → p ≠ .startRecord) := by
  induction h with
  | @one v t h =>
    intro s hp hf
    obtain ⟨p, h1, h2, h3, h4⟩ := foldl_field h hp hf
    exact ⟨p, v, s.fields, h1, rfl, h2, h3, h4⟩
  | @more v t vs ts h _ ih =>
    intro s hp hf
    obtain ⟨p, h1, h2, -, -⟩ := foldl_field h hp hf
    obtain ⟨p', f, fs, g1, g2, g3, -, g5⟩ := ih (s := CsvState.endField { s with pos := p, field := v }) (.inr rfl) rfl
    refine ⟨p', f, fs, ?_, ?_, g3, fun _ => g5 rfl, fun _ => g5 rfl⟩
    · rw [List.foldl_append, h1, List.foldl_cons, step_comma h2, g1]; rfl
    · rw [g2]; simp [CsvState.endField]

theorem finish_text {rs : List (List Str)} {t : Str} (h : CsvText rs t) :
    ∀ recs, (t.foldl (CsvState.step csvSymC) ⟨.startRecord, [], [], recs⟩).finish = recs ++ rs := by
  induction h with
  | nil => intro recs; simp [CsvState.finish]
  | @blank rs t c hc _ ih =>
    intro recs
    rw [List.foldl_cons, step_line_end hc (by simp), if_pos rfl]
    exact ih recs
  | @record r rs t t' hr hh _ ih =>
    intro recs
    obtain ⟨p, f, fs, h1, h2, h3, h4, -⟩ := foldl_fields hr.2 (s := ⟨.startRecord, [], [], recs⟩) (.inl rfl) rfl
    have hp := h4 hr.1
    have he : CsvState.endRecord ⟨p, f, fs, recs⟩ = ⟨.startRecord, [], [], recs ++ [r]⟩ := by
      simp only [CsvState.endRecord, h2, List.nil_append]
    rw [List.foldl_append, h1]
    have hi := ih (recs ++ [r])
    rw [List.append_assoc, List.singleton_append] at hi
    cases t' with
    | nil =>
      rw [← hi, List.foldl_nil, List.foldl_nil, ← he]
      cases p <;> first | rfl | exact absurd rfl hp
    | cons c t' =>
      have hc := hh c rfl
      rw [← hi, List.foldl_cons, List.foldl_cons, step_line_end hc h3, if_neg hp, he, step_line_end hc (by simp), if_pos rfl]

theorem csvRecords_text {rs : List (List Str)} {t : Str} (h : CsvText rs t) : csvRecords csvSymC t = rs := by
  unfold csvRecords
  rw [finish_text h]
  rfl

/-! ### Files without quotes -/

/-- The lines that are not empty, cut at the commas. -/
def plainOf {α : Type} (sym : α → CsvSym) (t : List α) : List (List (List α)) :=
  ((splitAll (fun c => sym c == .term) t).filter (fun l => !l.isEmpty)).map (splitAll (fun c => sym c == .comma))

theorem splitAll_ne_nil' {α : Type} (p : α → Bool) (t : List α) : splitAll p t ≠ [] := by
  cases t with
  | nil => simp [splitAll]
  | cons x t => unfold splitAll; split <;> (try split) <;> simp

/-- A prefix goes to the first piece. -/
def prepend {α : Type} (f : List α) : List (List α) → List (List α)
  | [] => []
  | g :: gs => (f ++ g) :: gs

/-- The rest of a file whose current record is under way. -/
theorem finish_plain {α : Type} {sym : α → CsvSym} : ∀ (t : List α) (s : CsvState α), (∀ c ∈ t, sym c ≠ .quote) →
    (s.pos = .startRecord → s.field = [] → s.fields = [] → (t.foldl (CsvState.step sym) s).finish = s.records ++ plainOf sym t) ∧
    (s.pos = .startField ∨ s.pos = .inField → ∀ l ls, splitAll (fun c => sym c == .term) t = l :: ls →
      (t.foldl (CsvState.step sym) s).finish =
        s.records ++ (s.fields ++ prepend s.field (splitAll (fun c => sym c == .comma) l)) :: (ls.filter (fun l => !l.isEmpty)).map (splitAll (fun c => sym c == .comma))) := by
  intro t
  induction t with
  | nil =>
    intro s _
    refine ⟨fun hp _ _ => by simp [CsvState.finish, hp, plainOf, splitAll], fun hp l ls h => ?_⟩
    simp only [splitAll, List.cons.injEq] at h
    obtain ⟨rfl, rfl⟩ := h
    rcases hp with hp | hp <;> simp [CsvState.finish, hp, CsvState.endRecord, splitAll, prepend]
  | cons c t ih =>
    intro s h
    have ht : ∀ c ∈ t, sym c ≠ .quote := fun x hx => h x (by simp [hx])
    have hq := h c (by simp)
    obtain ⟨l', ls', hl⟩ := List.exists_cons_of_ne_nil (splitAll_ne_nil' (fun c => sym c == .term) t)
    obtain ⟨g, gs, hg⟩ := List.exists_cons_of_ne_nil (splitAll_ne_nil' (fun c => sym c == .comma) l')
    cases hk : sym c with
    | quote => exact absurd hk hq
    | term =>
      have hsp : splitAll (fun c => sym c == .term) (c :: t) = [] :: splitAll (fun c => sym c == .term) t := by simp [splitAll, hk]
      refine ⟨fun hp hf hfs => ?_, fun hp l ls he => ?_⟩
      · have : s.step sym c = s := by unfold CsvState.step; simp [hp, hk]
        rw [List.foldl_cons, this, (ih s ht).1 hp hf hfs]
        simp [plainOf, hsp]
      · rw [hsp, List.cons.injEq] at he
        obtain ⟨rfl, rfl⟩ := he
        have : s.step sym c = s.endRecord := by unfold CsvState.step; rcases hp with hp | hp <;> simp [hp, hk]
        rw [List.foldl_cons, this, (ih _ ht).1 rfl rfl rfl]
        simp [CsvState.endRecord, plainOf, splitAll, prepend]
    | comma =>
      have hsp : splitAll (fun c => sym c == .term) (c :: t) = (c :: l') :: ls' := by simp [splitAll, hk, hl]
      have hc : splitAll (fun c => sym c == .comma) (c :: l') = [] :: g :: gs := by simp [splitAll, hk, hg]
      have hstep : s.pos = .startRecord ∨ s.pos = .startField ∨ s.pos = .inField → s.step sym c = s.endField := by
        rintro (hp | hp | hp) <;> (unfold CsvState.step; simp [hp, hk])
      have hi := (ih s.endField ht).2 (.inl rfl) l' ls' hl
      refine ⟨fun hp hf hfs => ?_, fun hp l ls he => ?_⟩
      · rw [List.foldl_cons, hstep (.inl hp), hi, plainOf, hsp]
        simp [CsvState.endField, hf, hfs, hc, hg, prepend]
      · rw [hsp, List.cons.injEq] at he
        obtain ⟨rfl, rfl⟩ := he
        rw [List.foldl_cons, hstep (.inr hp), hi]
        simp [CsvState.endField, hc, hg, prepend]
    | other =>
      have hsp : splitAll (fun c => sym c == .term) (c :: t) = (c :: l') :: ls' := by simp [splitAll, hk, hl]
      have hc : splitAll (fun c => sym c == .comma) (c :: l') = (c :: g) :: gs := by simp [splitAll, hk, hg]
      have hstep : s.pos = .startRecord ∨ s.pos = .startField ∨ s.pos = .inField → s.step sym c = s.push .inField c := by
        rintro (hp | hp | hp) <;> (unfold CsvState.step; simp [hp, hk])
      have hi := (ih (s.push .inField c) ht).2 (.inr rfl) l' ls' hl
      refine ⟨fun hp hf hfs => ?_, fun hp l ls he => ?_⟩
      · rw [List.foldl_cons, hstep (.inl hp), hi, plainOf, hsp]
        simp [CsvState.push, hf, hfs, hc, hg, prepend]
      · rw [hsp, List.cons.injEq] at he
        obtain ⟨rfl, rfl⟩ := he
        rw [List.foldl_cons, hstep (.inr hp), hi]
        simp [CsvState.push, hc, hg, prepend]

theorem csvRecords_plain {α : Type} {sym : α → CsvSym} {t : List α} (h : ∀ c ∈ t, sym c ≠ .quote) : csvRecords sym t = plainOf sym t := by
  unfold csvRecords
  rw [(finish_plain t _ h).1 rfl rfl rfl]
  rfl

theorem plainOf_chars (t : Str) : plainOf csvSymC t = plainRecords t := by
  have h1 : (fun c => csvSymC c == .term) = fun c : Char => decide (c = '\r' ∨ c = '\n') := by
    funext c
    unfold csvSymC
    by_cases a : c = ','
    · subst a; decide
    by_cases b : c = '"'
    · subst b; decide
    by_cases d : c = '\r' ∨ c = '\n' <;> simp [a, b, d]
  have h2 : (fun c => csvSymC c == .comma) = fun c : Char => decide (c = ',') := by
    funext c
    unfold csvSymC
    by_cases a : c = ','
    · simp [a]
    by_cases b : c = '"'
    · subst b; decide
    by_cases d : c = '\r' ∨ c = '\n' <;> simp [a, b, d]
  have h3 : (fun l : Str => !l.isEmpty) = fun l => decide (l ≠ []) := by
    funext l; cases l <;> simp
  unfold plainOf plainRecords
  rw [h1, h2, h3]

/-! ### Files that are not UTF-8 -/

theorem utf8_of_pieces {p : UInt8 → Bool} (hp : ∀ b, p b = true → ∃ s, [b] = utf8 s) : ∀ (t pre : List UInt8),
    (∀ l ls, splitAll p t = l :: ls → (∃ s, pre ++ l = utf8 s) → (∀ m ∈ ls, ∃ s, m = utf8 s) → ∃ s, pre ++ t = utf8 s) := by
  intro t
  induction t with
  | nil =>
    intro pre l ls h hl _
    simp only [splitAll, List.cons.injEq] at h
    obtain ⟨rfl, rfl⟩ := h
    exact hl
  | cons b t ih =>
    intro pre l ls h hl hls
    obtain ⟨l', ls', he⟩ := List.exists_cons_of_ne_nil (splitAll_ne_nil' p t)
    by_cases hb : p b = true
    · simp only [splitAll, hb, if_true, List.cons.injEq] at h
      obtain ⟨rfl, rfl⟩ := h
      obtain ⟨s, hs⟩ := hl
      obtain ⟨s2, hs2⟩ := hp b hb
      rw [List.append_nil] at hs
      rw [he] at hls
      obtain ⟨s3, hs3⟩ := ih [] l' ls' he (hls l' (by simp)) (fun m hm => hls m (by simp [hm]))
      refine ⟨s ++ s2 ++ s3, ?_⟩
      rw [utf8_append, utf8_append, ← hs, ← hs2, ← hs3]
      simp
    · simp only [splitAll, hb, he, Bool.false_eq_true, if_false, List.cons.injEq] at h
      obtain ⟨rfl, rfl⟩ := h
      obtain ⟨s, hs⟩ := ih (pre ++ [b]) l' ls' he (by simpa using hl) hls
      exact ⟨s, by simpa using hs⟩

theorem utf8_of_splitAll {p : UInt8 → Bool} (hp : ∀ b, p b = true → ∃ s, [b] = utf8 s) {t : List UInt8} (h : ∀ m ∈ splitAll p t, ∃ s, m = utf8 s) : ∃ s, t = utf8 s := by
  obtain ⟨l, ls, he⟩ := List.exists_cons_of_ne_nil (splitAll_ne_nil' p t)
  have := utf8_of_pieces hp t [] l ls he (h l (by simp [he])) (fun m hm => h m (by simp [he, hm]))
  simpa using this

theorem optMapM_mem {α β : Type} {f : α → Option β} : ∀ {xs : List α} {ys : List β}, xs.mapM f = some ys → ∀ x ∈ xs, ∃ y, f x = some y
  | [], _, _, _, hx => absurd hx (by simp)
  | a :: xs, ys, h, x, hx => by
    rw [List.mapM_cons] at h
    cases ha : f a with
    | none => simp [ha] at h
    | some b =>
      cases hm : xs.mapM f with
      | none => simp [ha, hm] at h
      | some bs =>
        rcases List.mem_cons.mp hx with rfl | hx
        · exact ⟨b, ha⟩
        · exact optMapM_mem hm x hx

theorem utf8_of_rows {bytes : List UInt8} (hq : (34 : UInt8) ∉ bytes) {rows : List Row} (h : (csvRecords csvSym bytes).mapM csvRow = some rows) : ∃ s, bytes = utf8 s := by
  have hq' : ∀ c ∈ bytes, csvSym c ≠ .quote := by
    intro c hc
    have h34 : c ≠ 34 := by rintro rfl; exact hq hc
    unfold csvSym
    by_cases a : c = 44
    · simp [a]
    by_cases d : c = 13 ∨ c = 10 <;> simp [a, h34, d]
  rw [csvRecords_plain hq'] at h
  refine utf8_of_splitAll (p := fun c => csvSym c == .term) ?_ ?_
  · intro b hb
    have : b = 13 ∨ b = 10 := by
      unfold csvSym at hb
      by_cases a : b = 44
      · simp [a] at hb
      by_cases d : b = 34
      · simp [d] at hb
      by_cases e : b = 13 ∨ b = 10
      · exact e
      · simp [a, d, e] at hb
    rcases this with rfl | rfl
    · exact ⟨['\r'], by decide⟩
    · exact ⟨['\n'], by decide⟩
  · intro m hm
    by_cases he : m = []
    · exact ⟨[], by simp [he]⟩
    · obtain ⟨row, hrow⟩ := optMapM_mem h (splitAll (fun c => csvSym c == .comma) m)
        (List.mem_map.mpr ⟨m, List.mem_filter.mpr ⟨hm, by cases m <;> simp_all⟩, rfl⟩)
      refine utf8_of_splitAll (p := fun c => csvSym c == .comma) ?_ ?_
      · intro b hb
        have : b = 44 := by
          unfold csvSym at hb
          by_cases a : b = 44
          · exact a
          by_cases d : b = 34
          · simp [d] at hb
          by_cases e : b = 13 ∨ b = 10 <;> simp [a, d, e] at hb
        subst this
        exact ⟨[','], by decide⟩
      · intro f hf
        unfold csvRow at hrow
        cases hd : (splitAll (fun c => csvSym c == .comma) m).mapM decodeUtf8 with
        | none => simp [hd] at hrow
        | some fs =>
          obtain ⟨s, hs⟩ := optMapM_mem hd f hf
          exact ⟨s, decodeUtf8_eq_some.mp hs⟩

/-! ### Texts without quotes are CSV -/

theorem first_cut {α : Type} (p : α → Bool) (t : List α) : (∀ x ∈ t, p x = false) ∨ ∃ a c b, t = a ++ c :: b ∧ (∀ x ∈ a, p x = false) ∧ p c = true := by
  induction t with
  | nil => exact .inl (by simp)
  | cons x t ih =>
    by_cases hx : p x = true
    · exact .inr ⟨[], x, t, rfl, by simp, hx⟩
    · have hx : p x = false := by simpa using hx
      rcases ih with h | ⟨a, c, b, rfl, h1, h2⟩
      · exact .inl (by simpa [hx] using h)
      · exact .inr ⟨x :: a, c, b, rfl, by simpa [hx] using h1, h2⟩

theorem fieldsText_plain : ∀ (n : Nat) (l : Str), l.length ≤ n → (∀ c ∈ l, c ≠ '"' ∧ c ≠ '\r' ∧ c ≠ '\n') → FieldsText (splitAll (· = ',') l) l := by
  intro n
  induction n with
  | zero =>
    intro l hl _
    have : l = [] := List.eq_nil_of_length_eq_zero (by omega)
    subst this
    exact .one (.plain (by simp) (by simp))
  | succ n ih =>
    intro l hl h
    have plain : ∀ a : Str, (∀ c ∈ a, c ∈ l) → (∀ x ∈ a, decide (x = ',') = false) → FieldText a a := by
      intro a ha hc
      refine .plain (fun c hm => ⟨by simpa using hc c hm, (h c (ha c hm)).2⟩) fun hh => ?_
      exact (h '"' (ha _ (List.mem_of_mem_head? hh))).1 rfl
    rcases first_cut (fun c : Char => decide (c = ',')) l with hn | ⟨a, c, b, rfl, h1, h2⟩
    · rw [splitAll_none hn]
      exact .one (plain l (fun _ h => h) hn)
    · rw [splitAll_cons h1 h2]
      have hc : c = ',' := by simpa using h2
      subst hc
      simp only [List.length_append, List.length_cons] at hl
      exact .more (plain a (by simp +contextual) h1) (ih b (by omega) fun c hm => h c (by simp [hm]))

theorem csvText_plain : ∀ (n : Nat) (t : Str), t.length ≤ n → '"' ∉ t → CsvText (plainRecords t) t := by
  intro n
  induction n with
  | zero =>
    intro t hl _
    have : t = [] := List.eq_nil_of_length_eq_zero (by omega)
    subst this
    exact .nil
  | succ n ih =>
    intro t hl h
    have hrec : ∀ a : Str, a ≠ [] → (∀ c ∈ a, c ∈ t) → (∀ x ∈ a, decide (x = '\r' ∨ x = '\n') = false) → RecordText (splitAll (· = ',') a) a := by
      intro a ha hm hn
      refine ⟨ha, fieldsText_plain _ a (Nat.le_refl _) fun c hc => ?_⟩
      have := hn c hc
      simp only [decide_eq_false_iff_not, not_or] at this
      exact ⟨by rintro rfl; exact h (hm _ hc), this⟩
    rcases first_cut (fun c : Char => decide (c = '\r' ∨ c = '\n')) t with hn | ⟨a, c, b, rfl, h1, h2⟩
    · unfold plainRecords
      rw [splitAll_none hn]
      by_cases he : t = []
      · subst he; exact .nil
      · have := CsvText.record (hrec t he (fun _ h => h) hn) (t' := []) (by simp) .nil
        simpa [he] using this
    · have hc : LineEnd c := by simpa [LineEnd] using h2
      simp only [List.length_append, List.length_cons] at hl
      have hi := CsvText.blank hc (ih b (by omega) (by simp at h; exact h.2.2))
      unfold plainRecords at hi ⊢
      rw [splitAll_cons h1 h2]
      by_cases he : a = []
      · subst he; simpa using hi
      · have := CsvText.record (hrec a he (by simp +contextual) h1) (t' := c :: b) (by intro d hd; cases hd; exact hc) hi
        simpa [he] using this

/-! ### Every table can be written -/

theorem fields_written : ∀ (r : List Str), r ≠ [] → ∃ t, t ≠ [] ∧ FieldsText r t
  | [], h => absurd rfl h
  | [v], _ => ⟨_, by simp, .one (.quoted v)⟩
  | v :: w :: vs, _ => by
    obtain ⟨t, _, ht⟩ := fields_written (w :: vs) (by simp)
    exact ⟨_, by simp, .more (.quoted v) ht⟩

theorem csv_written : ∀ (rows : List Row), ∃ t, CsvText (rows.map Row.fields) t ∧ ∀ c, t.head? = some c → c ≠ '\uFEFF'
  | [] => ⟨[], .nil, by simp⟩
  | r :: rows => by
    obtain ⟨t, ht, -⟩ := csv_written rows
    obtain ⟨u, hu, hr⟩ := fields_written r.fields (by simp [Row.fields])
    exact ⟨'\n' :: (u ++ '\n' :: t), .blank (.inr rfl) (.record ⟨hu, hr⟩ (by simp [LineEnd]) (.blank (.inr rfl) ht)), by simp⟩

end Verif.Model
