import Verif.Proofs.BuildAll
import Verif.Proofs.Sources
import Verif.Spec.Acceptance
/-! Which source directories compile, and how a build ends for the others. -/
namespace Verif.Model
open Verif.Spec Verif.Props

/-! ### Reading -/

theorem cfg_format (kind : DictionaryKind) : (BuildCfg.ofKind kind).encoding = (sourceFormat kind).encoding ∧ (BuildCfg.ofKind kind).flexible = (sourceFormat kind).flexible ∧
    (BuildCfg.ofKind kind).dict.normalizeDetails = (sourceFormat kind).unify ∧ (BuildCfg.ofKind kind).dict.skipInvalid = (sourceFormat kind).skip ∧
    (BuildCfg.ofKind kind).unkFields = (sourceFormat kind).unkColumns := by cases kind <;> exact ⟨rfl, rfl, rfl, rfl, rfl⟩

theorem readText_iff {env : BuildEnv} {enc : Encoding} {file : Option (List UInt8)} {text : Str} :
    env.readText enc file = .ok text ↔ ∃ bytes, file = some bytes ∧ env.decode enc bytes = text := by
  cases file with
  | none => simp [BuildEnv.readText]
  | some bytes => simp [BuildEnv.readText]

theorem readRows_iff {env : BuildEnv} {cfg : BuildCfg} {csvs : List (Option (List UInt8))} {rows : List Row} : env.readRows cfg csvs = .ok rows ↔
    ∃ files : List (List UInt8 × List Row), csvs = files.map (fun f => some f.1) ∧ (∀ f ∈ files, env.csv cfg.flexible cfg.encoding f.1 = some f.2) ∧ rows = files.flatMap (·.2) := by
  constructor
  · intro h
    induction csvs generalizing rows with
    | nil => cases h; exact ⟨[], rfl, by simp, rfl⟩
    | cons file csvs ih =>
      cases file with
      | none => simp [BuildEnv.readRows] at h
      | some bytes =>
        unfold BuildEnv.readRows at h
        split at h
        · simp at h
        · next rs hrs =>
          obtain ⟨rest, h1, h2⟩ := bind_eq_ok.mp h
          cases h2
          obtain ⟨files, rfl, h3, rfl⟩ := ih h1
          exact ⟨(bytes, rs) :: files, rfl, by rintro f (_ | ⟨_, hf⟩); exacts [hrs, h3 f hf], by simp⟩
  · rintro ⟨files, rfl, h, rfl⟩
    exact readRows_of h

theorem sourceRows_iff {env : BuildEnv} {kind : DictionaryKind} {src : SourceDir} {rows : List Row} :
    env.readRows (BuildCfg.ofKind kind) src.csvs = .ok rows ↔ SourceRows env kind src rows := by
  rw [readRows_iff, (cfg_format kind).1, (cfg_format kind).2.1]
  rfl

/-! ### Records -/

theorem rowEntry_short {cfg : DictCfg} {row : Row} (h : row.fields.length < 4) (i : Nat) : cfg.rowEntry i row = .error .panic := by
  unfold DictCfg.rowEntry
  rw [List.getElem?_eq_none (by omega)]
  rfl

theorem acceptable_of_entryMap {cfg : DictCfg} {rows : List Row} {m : EntryMap} (h : cfg.entryMap rows = .ok m) : Acceptable cfg.normalizeDetails cfg.skipInvalid rows := by
  unfold DictCfg.entryMap at h
  have key : ∀ (xs : List (Row × Nat)) (m m' : EntryMap), xs.foldlM (init := m) (fun m (p : Row × Nat) => (do
      let e ← cfg.rowEntry p.2 p.1
      return pushEntry m e : R EntryMap)) = .ok m' → ∀ p ∈ xs, 4 ≤ p.1.fields.length ∧ (cfg.skipInvalid = true ∨ (readRow cfg.normalizeDetails p.1).isSome) := by
    intro xs
    induction xs with
    | nil => intro m m' _ p hp; simp at hp
    | cons q xs ih =>
      intro m m' h p hp
      rw [List.foldlM_cons] at h
      obtain ⟨m1, h1, h2⟩ := bind_eq_ok.mp h
      rcases List.mem_cons.mp hp with rfl | hp
      · obtain ⟨e, h3, -⟩ := bind_eq_ok.mp h1
        by_cases h4 : 4 ≤ p.1.fields.length
        · refine ⟨h4, ?_⟩
          rw [rowEntry_eq h4] at h3
          cases hr : readRow cfg.normalizeDetails p.1 with
          | some w => exact .inr rfl
          | none =>
            rw [hr] at h3
            dsimp only at h3
            split at h3
            · exact .inl (by assumption)
            · simp at h3
        · rw [rowEntry_short (by omega)] at h3
          simp at h3
      · exact ih m1 m' h2 p hp
  intro row hrow
  obtain ⟨i, hi⟩ := List.getElem?_of_mem hrow
  exact key _ _ _ h (row, i) (by rw [List.mem_zipIdx_iff_getElem?]; exact hi)

theorem acceptable_perm {norm skip : Bool} {rows rows' : List Row} (h : rows.Perm rows') : Acceptable norm skip rows ↔ Acceptable norm skip rows' :=
  ⟨fun ha r hr => ha r (h.mem_iff.mpr hr), fun ha r hr => ha r (h.mem_iff.mp hr)⟩

/-- The first record that cannot be used decides how the loop ends. -/
theorem entryMap_error {cfg : DictCfg} {rows : List Row} {e : Fail} (h : cfg.entryMap rows = .error e) :
    e = .err .parse ∨ (e = .panic ∧ ∃ row ∈ rows, row.fields.length < 4) := by
  unfold DictCfg.entryMap at h
  have key : ∀ (xs : List (Row × Nat)) (m : EntryMap), xs.foldlM (init := m) (fun m (p : Row × Nat) => (do
      let e ← cfg.rowEntry p.2 p.1
      return pushEntry m e : R EntryMap)) = .error e → e = .err .parse ∨ (e = .panic ∧ ∃ p ∈ xs, p.1.fields.length < 4) := by
    intro xs
    induction xs with
    | nil => intro m h; cases h
    | cons q xs ih =>
      intro m h
      rw [List.foldlM_cons] at h
      by_cases h4 : 4 ≤ q.1.fields.length
      · rw [rowEntry_eq h4] at h
        have step : ∀ m', xs.foldlM (init := m') (fun m (p : Row × Nat) => (do
            let e ← cfg.rowEntry p.2 p.1
            return pushEntry m e : R EntryMap)) = .error e → e = .err .parse ∨ (e = .panic ∧ ∃ p ∈ q :: xs, p.1.fields.length < 4) := by
          intro m' h
          rcases ih m' h with h | ⟨h, p, hp, h'⟩
          · exact .inl h
          · exact .inr ⟨h, p, by simp [hp], h'⟩
        cases hr : readRow cfg.normalizeDetails q.1 with
        | some w => rw [hr] at h; exact step _ h
        | none =>
          rw [hr] at h
          cases hs : cfg.skipInvalid with
          | true => simp only [hs, if_true] at h; exact step _ h
          | false =>
            simp only [hs, Bool.false_eq_true, if_false] at h
            cases h; exact .inl rfl
      · rw [rowEntry_short (by omega)] at h
        cases h
        exact .inr ⟨rfl, q, by simp, by omega⟩
  rcases key _ _ h with h | ⟨h, p, hp, h'⟩
  · exact .inl h
  · exact .inr ⟨h, p.1, List.fst_mem_of_mem_zipIdx hp, h'⟩

/-- If every record with enough columns can be used, a short record is a panic. -/
theorem entryMap_short {cfg : DictCfg} {rows : List Row} (h : ∀ row ∈ rows, 4 ≤ row.fields.length → cfg.skipInvalid = true ∨ (readRow cfg.normalizeDetails row).isSome)
    (hs : ∃ row ∈ rows, row.fields.length < 4) : cfg.entryMap rows = .error .panic := by
  cases he : cfg.entryMap rows with
  | ok m =>
    obtain ⟨row, h1, h2⟩ := hs
    have := (acceptable_of_entryMap he row h1).1
    omega
  | error e =>
    rcases entryMap_error he with rfl | ⟨rfl, -⟩
    · exfalso
      unfold DictCfg.entryMap at he
      have key : ∀ (xs : List (Row × Nat)) (m : EntryMap), (∀ p ∈ xs, 4 ≤ p.1.fields.length → cfg.skipInvalid = true ∨ (readRow cfg.normalizeDetails p.1).isSome) →
          xs.foldlM (init := m) (fun m (p : Row × Nat) => (do
            let e ← cfg.rowEntry p.2 p.1
            return pushEntry m e : R EntryMap)) ≠ .error (.err .parse) := by
        intro xs
        induction xs with
        | nil => intro m _ h; cases h
        | cons q xs ih =>
          intro m hq h
          rw [List.foldlM_cons] at h
          by_cases h4 : 4 ≤ q.1.fields.length
          · rw [rowEntry_eq h4] at h
            have hq' := hq q (by simp) h4
            cases hr : readRow cfg.normalizeDetails q.1 with
            | some w => rw [hr] at h; exact ih _ (fun p hp => hq p (by simp [hp])) h
            | none =>
              rw [hr] at h hq'
              simp only [Option.isSome_none, Bool.false_eq_true, or_false] at hq'
              simp only [hq', if_true] at h
              exact ih _ (fun p hp => hq p (by simp [hp])) h
          · rw [rowEntry_short (by omega)] at h
            cases h
      exact key _ _ (fun p hp => h p.1 (List.fst_mem_of_mem_zipIdx hp)) he
    · rfl

theorem pushDetails_error {cfg : DictCfg} {rows : List Row} {st : List UInt8 × List UInt8} {e : Fail} (h : rows.foldlM (init := st) cfg.pushDetails = .error e) : e = .err .serialize := by
  induction rows generalizing st with
  | nil => cases h
  | cons r rows ih =>
    rw [List.foldlM_cons] at h
    cases hp : cfg.pushDetails st r with
    | ok st' => rw [hp] at h; exact ih h
    | error e' =>
      rw [hp] at h
      cases h
      unfold DictCfg.pushDetails at hp
      dsimp only at hp
      split at hp <;> cases hp
      rfl

/-! ### The definition files -/

theorem compileChardef_ok {env : BuildEnv} {kind : DictionaryKind} {src : SourceDir} {d : CharDefs} (h : env.compileChardef (BuildCfg.ofKind kind) src = .ok d) :
    ∃ bytes file, src.charDef = some bytes ∧ DefRead (env.decode (sourceFormat kind).encoding bytes) file := by
  unfold BuildEnv.compileChardef at h
  obtain ⟨text, h1, h⟩ := bind_eq_ok.mp h
  obtain ⟨b, h2, -⟩ := bind_eq_ok.mp h
  obtain ⟨bytes, h3, rfl⟩ := readText_iff.mp h1
  rw [(cfg_format kind).1] at h2
  obtain ⟨file, h4, -⟩ := parse_iff.mp h2
  exact ⟨bytes, file, h3, h4⟩

theorem compileUnk_ok {env : BuildEnv} {kind : DictionaryKind} {src : SourceDir} {d : CharDefs} {u : UnkDict} (h : env.compileUnk (BuildCfg.ofKind kind) src d = .ok u) :
    ∃ bytes ls, src.unk = some bytes ∧ UnkRead (sourceFormat kind).unkColumns (env.decode (sourceFormat kind).encoding bytes) ls := by
  unfold BuildEnv.compileUnk at h
  obtain ⟨text, h1, h⟩ := bind_eq_ok.mp h
  obtain ⟨bytes, h3, rfl⟩ := readText_iff.mp h1
  rw [(cfg_format kind).1, (cfg_format kind).2.2.2.2] at h
  unfold parseUnk at h
  obtain ⟨es, h4, -⟩ := bind_eq_ok.mp h
  exact ⟨bytes, _, h3, (unkEntries_iff (by cases kind <;> decide)).mp ⟨es, h4, rfl⟩⟩

/-- The ways in which compiling `matrix.def` ends. -/
theorem buildMatrix_cases (text : Str) : (buildMatrix text = .error (.err .parse) ∨ buildMatrix text = .error (.err .content)) ∨
    (∃ f b junk rows, NumberLines text ((f :: b :: junk) :: rows) ∧ (∀ row ∈ rows, Stored f b row) ∧ ∃ bytes, buildMatrix text = .ok bytes) ∨
    ∃ header rows, NumberLines text (header :: rows) ∧ (header.length < 2 ∨ ∃ f b junk, header = f :: b :: junk ∧ ∃ row ∈ rows, ¬ Stored f b row) ∧
      buildMatrix text = .error .panic := by
  obtain ⟨c1, c2, c3⟩ := c69_matrix_partial text
  by_cases h : ∃ rows, NumberLines text rows
  · obtain ⟨rows, h⟩ := h
    match rows, h with
    | [], h => exact .inl (.inr (c2 h))
    | [] :: rows, h => exact .inr (.inr ⟨_, _, h, .inl (by simp), c69_matrix_fails text _ _ h (.inl (by simp))⟩)
    | [a] :: rows, h => exact .inr (.inr ⟨_, _, h, .inl (by simp), c69_matrix_fails text _ _ h (.inl (by simp))⟩)
    | (f :: b :: junk) :: rows, h =>
      by_cases hs : ∀ row ∈ rows, Stored f b row
      · exact .inr (.inl ⟨f, b, junk, rows, h, hs, c3 f b junk rows h hs⟩)
      · have hs' : ∃ row ∈ rows, ¬ Stored f b row := by
          by_contra hc
          exact hs fun row hr => by
            by_contra hn
            exact hc ⟨row, hr, hn⟩
        exact .inr (.inr ⟨_, _, h, .inr ⟨f, b, junk, rfl, hs'⟩, c69_matrix_fails text _ _ h (.inr ⟨f, b, junk, rfl, hs'⟩)⟩)
  · exact .inl (.inl (c1 h))

theorem compileMatrix_ok {env : BuildEnv} {kind : DictionaryKind} {src : SourceDir} {m : List UInt8} (h : env.compileMatrix (BuildCfg.ofKind kind) src = .ok m) :
    ∃ bytes forward backward junk costs, src.matrix = some bytes ∧
      NumberLines (env.decode (sourceFormat kind).encoding bytes) ((forward :: backward :: junk) :: costs) ∧ ∀ row ∈ costs, Stored forward backward row := by
  unfold BuildEnv.compileMatrix at h
  obtain ⟨text, h1, h⟩ := bind_eq_ok.mp h
  obtain ⟨bytes, h3, rfl⟩ := readText_iff.mp h1
  rw [(cfg_format kind).1] at h
  rcases buildMatrix_cases (env.decode (sourceFormat kind).encoding bytes) with (h4 | h4) | ⟨f, b, junk, rows, h4, h5, -⟩ | ⟨_, _, _, _, h4⟩
  · rw [h4] at h; cases h
  · rw [h4] at h; cases h
  · exact ⟨bytes, f, b, junk, rows, h3, h4, h5⟩
  · rw [h4] at h; cases h

/-! ### The whole directory -/

theorem buildable_of_compile {env : BuildEnv} {kind : DictionaryKind} {src : SourceDir} {parts : CompiledParts} (h : compile env kind src = .ok parts) : Buildable env kind src := by
  rw [compile_eq] at h
  obtain ⟨f, hf, h⟩ := bind_eq_ok.mp h
  obtain ⟨m, hm, -⟩ := bind_eq_ok.mp h
  obtain ⟨h1, h2, ⟨st⟩⟩ := compileFront_ok hf
  refine ⟨compileChardef_ok h1, compileUnk_ok h2, ⟨st.rows, sourceRows_iff.mp st.hrows, ?_⟩, compileMatrix_ok hm⟩
  have := acceptable_of_entryMap st.hmap
  rw [(cfg_format kind).2.2.1, (cfg_format kind).2.2.2.1, acceptable_perm (sortByKey_perm _ _)] at this
  exact this

theorem chardef_of_read {env : BuildEnv} (hh : ∀ index, (env.hashOrder index).Perm index) {kind : DictionaryKind} {src : SourceDir} {bytes : List UInt8} {file : List DefLine}
    (h1 : src.charDef = some bytes) (h2 : DefRead (env.decode (sourceFormat kind).encoding bytes) file) :
    ∃ d, env.compileChardef (BuildCfg.ofKind kind) src = .ok d := by
  obtain ⟨_, -, b, hb, hd⟩ := compiles_read h2
  have : env.compileChardef (BuildCfg.ofKind kind) src = b.build (env.hashOrder b.index) := by
    unfold BuildEnv.compileChardef
    rw [h1, (cfg_format kind).1]
    simp only [BuildEnv.readText, bind_ok]
    rw [hb, bind_ok]
  exact ⟨_, this.trans (hd _ (hh _))⟩

theorem unk_of_read {env : BuildEnv} {kind : DictionaryKind} {src : SourceDir} {bytes : List UInt8} {ls : List UnkLine}
    (h1 : src.unk = some bytes) (h2 : UnkRead (sourceFormat kind).unkColumns (env.decode (sourceFormat kind).encoding bytes) ls) (d : CharDefs) :
    ∃ u, env.compileUnk (BuildCfg.ofKind kind) src d = .ok u := by
  obtain ⟨es, h3, -⟩ := (unkEntries_iff (by cases kind <;> decide)).mpr h2
  refine ⟨⟨makeCategoryReferences d.names es, makeCostsArray es⟩, ?_⟩
  unfold BuildEnv.compileUnk
  rw [h1, (cfg_format kind).1, (cfg_format kind).2.2.2.2]
  simp only [BuildEnv.readText, bind_ok]
  unfold parseUnk
  rw [h3]; rfl

theorem matrix_of_read {env : BuildEnv} {kind : DictionaryKind} {src : SourceDir} {bytes : List UInt8} {f b : Int} {junk : List Int} {rows : List (List Int)}
    (h1 : src.matrix = some bytes) (h2 : NumberLines (env.decode (sourceFormat kind).encoding bytes) ((f :: b :: junk) :: rows)) (h3 : ∀ row ∈ rows, Stored f b row) :
    ∃ m, env.compileMatrix (BuildCfg.ofKind kind) src = .ok m := by
  obtain ⟨m, h4⟩ := (c69_matrix_partial _).2.2 f b junk rows h2 h3
  refine ⟨m, ?_⟩
  unfold BuildEnv.compileMatrix
  rw [h1, (cfg_format kind).1]
  simpa only [BuildEnv.readText, bind_ok] using h4

/-! ### Errors and panics under any faults -/

/-- The program ends with a value or an error, not with a panic. -/
def Soft {α : Type} (m : W α) : Prop := ∀ fl s e, (m fl s).1 = .error e → ∃ k, e = .err k

namespace Soft
variable {α β : Type}

theorem pure (a : α) : Soft (Pure.pure a : W α) := by intro fl s e h; cases h

theorem liftR {r : R α} (h : ∀ e, r = .error e → ∃ k, e = .err k) : Soft (Model.liftR r) := fun _ _ e he => h e he

theorem bind {m : W α} {k : α → W β} (hm : Soft m) (hk : ∀ a, (∃ fl s, (m fl s).1 = .ok a) → Soft (k a)) : Soft (m >>= k) := by
  intro fl s e h
  rw [W.bind_def] at h
  rcases hr : m fl s with ⟨x, s'⟩
  rw [hr] at h
  cases x with
  | error e' =>
    cases h
    exact hm fl s _ (by rw [hr])
  | ok a => exact hk a ⟨fl, s, by rw [hr]⟩ fl s' e h

theorem osCall (op : FsOp) : Soft (Model.osCall op) := by
  intro fl s e h
  unfold Model.osCall at h
  split at h <;> cases h
  exact ⟨_, rfl⟩

theorem osWrite (p : Path) (bytes okBuf : List UInt8) (errBuf : Nat → List UInt8) : Soft (Model.osWrite p bytes okBuf errBuf) := by
  intro fl s e h
  unfold Model.osWrite at h
  split at h <;> cases h
  exact ⟨_, rfl⟩

theorem flushBuf (p : Path) : Soft (Model.flushBuf p) := by
  intro fl s e h
  unfold Model.flushBuf at h
  split at h
  · cases h
  · exact osWrite _ _ _ _ fl s e h

theorem writeCold (p : Path) (data : List UInt8) : Soft (Model.writeCold p data) := by
  intro fl s e h
  unfold Model.writeCold at h
  split at h
  · exact osWrite _ _ _ _ fl s e h
  · cases h

theorem writeAll (p : Path) (data : List UInt8) : Soft (Model.writeAll p data) := by
  intro fl s e h
  unfold Model.writeAll at h
  split at h
  · cases h
  · split at h
    · exact bind (flushBuf p) (fun _ _ => writeCold p data) fl s e h
    · exact writeCold p data fl s e h

theorem forM {xs : List β} {f : β → W Unit} (h : ∀ x, Soft (f x)) : Soft (xs.forM f) := by
  induction xs with
  | nil => exact pure ()
  | cons x xs ih => exact bind (h x) fun _ _ => ih

theorem writeData (env : BuildEnv) (p : Path) (data : List UInt8) : Soft (env.writeData p data) := forM fun x => writeAll p x

theorem withWriter {p : Path} {body : W α} (h : Soft body) : Soft (Model.withWriter p body) := by
  intro fl s e he
  unfold Model.withWriter at he
  split at he
  next e' s' ho =>
    cases he
    exact osCall (.create p) fl s _ (by rw [ho])
  · exact h _ _ _ he

end Soft

theorem soft_text {env : BuildEnv} {enc : Encoding} {file : Option (List UInt8)} {e : Fail} (h : env.readText enc file = .error e) : ∃ k, e = .err k := by
  cases file <;> cases h
  exact ⟨_, rfl⟩

theorem soft_bind {α β : Type} {x : R α} {f : α → R β} (hx : ∀ e, x = .error e → ∃ k, e = .err k) (hf : ∀ a, x = .ok a → ∀ e, f a = .error e → ∃ k, e = .err k) :
    ∀ e, (x >>= f) = .error e → ∃ k, e = .err k := by
  intro e h
  cases x with
  | error e' => cases h; exact hx _ rfl
  | ok a => exact hf a rfl e h

theorem readable_soft {e : Fail} (h : Readable e) : ∃ k, e = .err k := by rcases h with rfl | rfl <;> exact ⟨_, rfl⟩

theorem soft_chardef {env : BuildEnv} (hh : ∀ index, (env.hashOrder index).Perm index) (cfg : BuildCfg) (src : SourceDir) :
    ∀ e, env.compileChardef cfg src = .error e → ∃ k, e = .err k := by
  refine soft_bind (fun e h => soft_text h) fun text _ => soft_bind (fun e h => readable_soft (parse_readable _ _ e h)) fun b hb e he => ?_
  exfalso
  obtain ⟨file, hf, -⟩ := parse_iff.mp hb
  obtain ⟨_, -, b', h1, h2⟩ := compiles_read hf
  rw [hb] at h1
  cases h1
  rw [h2 _ (hh _)] at he
  cases he

theorem soft_unk {env : BuildEnv} {cfg : BuildCfg} (hx : 4 ≤ cfg.unkFields) (src : SourceDir) (d : CharDefs) : ∀ e, env.compileUnk cfg src d = .error e → ∃ k, e = .err k := by
  refine soft_bind (fun e h => soft_text h) fun text _ => soft_bind (fun e h => readable_soft (mapM_readable (fun line => parseUnkEntry_readable hx (splitAll (· = ',') line)) _ e h))
    fun es _ e he => by cases he

theorem soft_readRows (env : BuildEnv) (cfg : BuildCfg) (csvs : List (Option (List UInt8))) : ∀ e, env.readRows cfg csvs = .error e → ∃ k, e = .err k := by
  induction csvs with
  | nil => intro e h; cases h
  | cons f csvs ih =>
    intro e h
    cases f with
    | none => cases h; exact ⟨_, rfl⟩
    | some bytes =>
      unfold BuildEnv.readRows at h
      split at h
      · cases h; exact ⟨_, rfl⟩
      · exact soft_bind ih (fun a _ e he => by cases he) e h

theorem soft_build {env : BuildEnv} (hh : ∀ index, (env.hashOrder index).Perm index) {kind : DictionaryKind} (hk : kind ≠ .koDic ∧ kind ≠ .ccCedict) {src : SourceDir}
    (h1 : ¬ ShortRecord env kind src) (h2 : ¬ BadMatrix env kind src) (out : Path) : Soft (env.buildDictionary kind src out) := by
  have hstep : ∀ {α : Type} (m : W α), (BuildCfg.ofKind kind).step m = m := by
    intro α m
    have : (BuildCfg.ofKind kind).unwraps = false := by cases kind <;> first | rfl | exact absurd rfl hk.1 | exact absurd rfl hk.2
    unfold BuildCfg.step
    rw [this]; rfl
  unfold BuildEnv.buildDictionary
  simp only [hstep]
  refine Soft.bind (Soft.osCall _) fun _ _ => Soft.bind ?_ fun d _ => Soft.bind ?_ fun _ _ => Soft.bind ?_ fun _ _ => ?_
  · refine Soft.bind (Soft.liftR (soft_chardef hh _ _)) fun d _ => Soft.bind (Soft.withWriter (Soft.bind (Soft.writeData _ _ _) fun _ _ => Soft.flushBuf _)) fun _ _ => Soft.pure _
  · refine Soft.bind (Soft.liftR (soft_unk (by cases kind <;> decide) _ _)) fun u _ => Soft.withWriter (Soft.bind (Soft.writeData _ _ _) fun _ _ => Soft.flushBuf _)
  · refine Soft.bind (Soft.liftR (soft_readRows _ _ _)) fun rows ⟨_, _, hr⟩ => ?_
    refine Soft.withWriter (Soft.withWriter (Soft.bind (Soft.liftR ?_) fun m _ => Soft.withWriter (Soft.withWriter ?_)))
    · intro e he
      rcases entryMap_error he with rfl | ⟨-, row, h3, h4⟩
      · exact ⟨_, rfl⟩
      · exact absurd ⟨rows, sourceRows_iff.mp hr, row, (sortByKey_perm _ _).mem_iff.mp h3, h4⟩ h1
    · refine Soft.bind (Soft.liftR fun e he => ⟨_, pushDetails_error he⟩) fun _ _ => Soft.bind (Soft.writeData _ _ _) fun _ _ => Soft.bind (Soft.writeData _ _ _) fun _ _ =>
        Soft.bind (Soft.flushBuf _) fun _ _ => Soft.bind (Soft.flushBuf _) fun _ _ => Soft.bind (Soft.liftR ?_) fun _ _ =>
        Soft.bind (Soft.writeData _ _ _) fun _ _ => Soft.bind (Soft.writeData _ _ _) fun _ _ => Soft.flushBuf _
      intro e he
      unfold BuildEnv.doubleArray at he
      split at he <;> cases he
      exact ⟨_, rfl⟩
  · refine Soft.bind (Soft.liftR ?_) fun m _ => Soft.withWriter (Soft.bind (Soft.writeData _ _ _) fun _ _ => Soft.flushBuf _)
    refine soft_bind (fun e h => soft_text h) fun text ht e he => ?_
    obtain ⟨bytes, hb, rfl⟩ := readText_iff.mp ht
    rw [(cfg_format kind).1] at he
    rcases buildMatrix_cases (env.decode (sourceFormat kind).encoding bytes) with (h4 | h4) | ⟨f, b, junk, rows, h4, h5, m, h6⟩ | ⟨hd, rows, h4, h5, -⟩
    · rw [h4] at he; cases he; exact ⟨_, rfl⟩
    · rw [h4] at he; cases he; exact ⟨_, rfl⟩
    · rw [h6] at he; cases he
    · exact absurd ⟨bytes, hd, rows, hb, h4, h5⟩ h2

/-- Compilation ends with parts, an error or a panic. -/
theorem compile_error {env : BuildEnv} (hh : ∀ index, (env.hashOrder index).Perm index) {kind : DictionaryKind} {src : SourceDir} {e : Fail} (h : compile env kind src = .error e) :
    (∃ k, e = .err k) ∨ e = .panic := by
  have hb : ∀ {α β : Type} {x : R α} {f : α → R β} {e : Fail}, (∀ e, x = .error e → (∃ k, e = .err k) ∨ e = .panic) → (∀ a e, f a = .error e → (∃ k, e = .err k) ∨ e = .panic) →
      (x >>= f) = .error e → (∃ k, e = .err k) ∨ e = .panic := by
    intro α β x f e hx hf h
    cases x with
    | error e' => cases h; exact hx _ rfl
    | ok a => exact hf a e h
  unfold compile at h
  refine hb (fun e h => .inl (soft_chardef hh _ _ e h)) (fun d e h => hb (fun e h => .inl (soft_unk (by cases kind <;> decide) _ _ e h)) (fun u e h =>
    hb (fun e h => .inl (soft_readRows _ _ _ e h)) (fun rows e h => hb (fun e h => ?_) (fun o e h => hb (fun e h => ?_) (fun m e h => by cases h) h) h) h) h) h
  · rw [buildDict_steps] at h
    refine hb (fun e h => ?_) (fun m e h => hb (fun e h => .inl ⟨_, pushDetails_error h⟩) (fun b e h => ?_) h) h
    · rcases entryMap_error h with rfl | ⟨rfl, -⟩
      · exact .inl ⟨_, rfl⟩
      · exact .inr rfl
    · split at h <;> cases h
      exact .inl ⟨_, rfl⟩
  · refine hb (fun e h => .inl (soft_text h)) (fun text e h => ?_) h
    rcases buildMatrix_cases text with (h4 | h4) | ⟨f, b, junk, rows, h4, h5, m, h6⟩ | ⟨hd, rows, h4, h5, h6⟩
    · rw [h4] at h; cases h; exact .inl ⟨_, rfl⟩
    · rw [h4] at h; cases h; exact .inl ⟨_, rfl⟩
    · rw [h6] at h; cases h
    · rw [h6] at h; cases h; exact .inr rfl

end Verif.Model
