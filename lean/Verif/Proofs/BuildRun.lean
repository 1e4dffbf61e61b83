import Verif.Proofs.BuildSteps
/-! A whole dictionary build: its result, its files, its crash states. -/
namespace Verif.Model
open Verif.Spec

theorem W.bind_assoc {α β γ : Type} (m : W α) (k : α → W β) (j : β → W γ) : (m >>= k) >>= j = m >>= fun a => k a >>= j := by
  funext fl s
  simp only [W.bind_def]
  rcases m fl s with ⟨r, s'⟩
  cases r <;> rfl

/-! ### Results without faults -/

/-- The result of the program, whatever the state it starts in. -/
def Gives {α : Type} (fl : Faults) (m : W α) (r : R α) : Prop := ∀ s, (m fl s).1 = r

namespace Gives
variable {α β : Type} {fl : Faults}

theorem pure (a : α) : Gives fl (pure a : W α) (.ok a) := fun _ => rfl
theorem liftR (r : R α) : Gives fl (Model.liftR r) r := fun _ => rfl

theorem bind {m : W α} {k : α → W β} {r : R α} {g : α → R β} (hm : Gives fl m r) (hk : ∀ a, r = .ok a → Gives fl (k a) (g a)) :
    Gives fl (m >>= k) (r >>= g) := by
  intro s
  rw [W.bind_def]
  have h := hm s
  rcases hr : m fl s with ⟨x, s'⟩
  rw [hr] at h
  dsimp only at h
  subst h
  cases x with
  | ok a => exact hk a rfl s'
  | error e => rfl

theorem mapResult {m : W α} {r : R α} (f : R α → R α) (h : Gives fl m r) : Gives fl (m.mapResult f) (f r) := fun s => congrArg f (h s)

theorem osCall (hf : NoFaults fl) (op : FsOp) : Gives fl (Model.osCall op) (.ok ()) := by
  intro s; unfold Model.osCall; rw [hf]

theorem flushBuf (hf : NoFaults fl) (p : Path) : Gives fl (Model.flushBuf p) (.ok ()) := by
  intro s; unfold Model.flushBuf; split
  · rfl
  · unfold Model.osWrite; rw [hf]

theorem writeCold (hf : NoFaults fl) (p : Path) (d : List UInt8) : Gives fl (Model.writeCold p d) (.ok ()) := by
  intro s; unfold Model.writeCold; split
  · unfold Model.osWrite; rw [hf]
  · rfl

theorem writeAll (hf : NoFaults fl) (p : Path) (d : List UInt8) : Gives fl (Model.writeAll p d) (.ok ()) := by
  intro s; unfold Model.writeAll; split
  · rfl
  · split
    · exact (Gives.bind (flushBuf hf p) (fun _ _ => writeCold hf p d)) s
    · exact writeCold hf p d s

theorem forM {f : α → W Unit} (xs : List α) (h : ∀ x, Gives fl (f x) (.ok ())) : Gives fl (xs.forM f) (.ok ()) := by
  induction xs with
  | nil => exact Gives.pure ()
  | cons x xs ih => exact (h x).bind fun _ _ => ih

theorem writeData (hf : NoFaults fl) (env : BuildEnv) (p : Path) (d : List UInt8) : Gives fl (env.writeData p d) (.ok ()) := Gives.forM _ fun _ => writeAll hf p _

theorem withWriter (hf : NoFaults fl) (p : Path) {body : W α} {r : R α} (h : Gives fl body r) : Gives fl (Model.withWriter p body) r := by
  intro s
  unfold Model.withWriter Model.osCall
  rw [hf]
  exact h _

end Gives

section
variable {fl : Faults} {env : BuildEnv} {cfg : BuildCfg} {src : SourceDir} {out : Path}

theorem gives_chardef (hf : NoFaults fl) : Gives fl (env.buildChardef cfg src out) (env.compileChardef cfg src) := by
  have := Gives.bind (fl := fl) (Gives.liftR (env.compileChardef cfg src)) (g := fun d => Except.ok () >>= fun _ => Except.ok d)
    fun d _ => ((Gives.writeData hf env (inDir out "char_def.bin") d.bytes).bind (g := fun _ => .ok ()) fun _ _ => Gives.flushBuf hf (inDir out "char_def.bin")).withWriter hf
      (inDir out "char_def.bin") |>.bind fun _ _ => Gives.pure d
  have he : (env.compileChardef cfg src >>= fun d => (Except.ok () : R Unit) >>= fun _ => Except.ok d) = env.compileChardef cfg src := by
    cases env.compileChardef cfg src <;> rfl
  rw [he] at this
  exact this

theorem gives_unk (hf : NoFaults fl) (d : CharDefs) : Gives fl (env.buildUnk cfg src d out) (env.compileUnk cfg src d >>= fun _ => .ok ()) :=
  Gives.bind (Gives.liftR _) fun u _ => ((Gives.writeData hf env (inDir out "unk.bin") u.bytes).bind (g := fun _ => .ok ()) fun _ _ => Gives.flushBuf hf _).withWriter hf _

theorem gives_matrix (hf : NoFaults fl) : Gives fl (env.buildCostMatrix cfg src out) (env.compileMatrix cfg src >>= fun _ => .ok ()) :=
  Gives.bind (Gives.liftR _) fun m _ => ((Gives.writeData hf env (inDir out "matrix.mtx") m).bind (g := fun _ => .ok ()) fun _ _ => Gives.flushBuf hf _).withWriter hf _

/-- `buildDict` without the files it produces. -/
theorem buildDict_steps (yada : DaBuilder) (cfg : DictCfg) (rows : List Row) :
    Model.buildDict yada cfg rows = (do
      let m ← cfg.entryMap (sortByKey cfg.rowKey rows)
      let bufs ← (sortByKey cfg.rowKey rows).foldlM (init := ([], [])) cfg.pushDetails
      match yada (keyset 0 m) with
      | none => .error (.err .io)
      | some da => .ok ⟨da, valsBuffer m, bufs.1, bufs.2⟩) := rfl

theorem gives_dict (hf : NoFaults fl) : Gives fl (env.buildDict cfg src out)
    (env.readRows cfg src.csvs >>= fun rows => Model.buildDict env.yada cfg.dict rows >>= fun _ => .ok ()) := by
  refine Gives.bind (Gives.liftR _) fun rows _ => ?_
  have he : (Model.buildDict env.yada cfg.dict rows >>= fun _ => (.ok () : R Unit)) = (cfg.dict.entryMap (sortByKey cfg.dict.rowKey rows) >>= fun m =>
      (sortByKey cfg.dict.rowKey rows).foldlM (init := ([], [])) cfg.dict.pushDetails >>= fun _ => env.doubleArray m >>= fun _ => .ok ()) := by
    rw [buildDict_steps]
    cases cfg.dict.entryMap (sortByKey cfg.dict.rowKey rows) with
    | error e => rfl
    | ok m =>
      simp only [bind_ok]
      cases (sortByKey cfg.dict.rowKey rows).foldlM (init := ([], [])) cfg.dict.pushDetails with
      | error e => rfl
      | ok b =>
        simp only [bind_ok]
        unfold BuildEnv.doubleArray
        cases env.yada (keyset 0 m) <;> rfl
  rw [he]
  refine Gives.withWriter hf _ (Gives.withWriter hf _ (Gives.bind (Gives.liftR _) fun m _ => Gives.withWriter hf _ (Gives.withWriter hf _ ?_)))
  refine Gives.bind (Gives.liftR _) fun bufs _ => ?_
  refine (Gives.writeData hf _ _ _).bind (g := fun _ => env.doubleArray m >>= fun _ => .ok ()) fun _ _ => ?_
  refine (Gives.writeData hf _ _ _).bind (g := fun _ => env.doubleArray m >>= fun _ => .ok ()) fun _ _ => ?_
  refine (Gives.flushBuf hf _).bind (g := fun _ => env.doubleArray m >>= fun _ => .ok ()) fun _ _ => ?_
  refine (Gives.flushBuf hf _).bind (g := fun _ => env.doubleArray m >>= fun _ => .ok ()) fun _ _ => ?_
  refine Gives.bind (Gives.liftR _) fun a _ => ?_
  refine (Gives.writeData hf _ _ _).bind (g := fun _ => .ok ()) fun _ _ => ?_
  exact (Gives.writeData hf _ _ _).bind (g := fun _ => .ok ()) fun _ _ => Gives.flushBuf hf _

/-- `unwrap` on the first failing step is `unwrap` on the whole. -/
def BuildCfg.onResult (cfg : BuildCfg) {α : Type} (r : R α) : R α := if cfg.unwraps then unwrapErr r else r

theorem gives_step {α : Type} {m : W α} {r : R α} (h : Gives fl m r) : Gives fl (cfg.step m) (cfg.onResult r) := by
  unfold BuildCfg.step BuildCfg.onResult
  split
  · exact h.mapResult _
  · exact h

theorem onResult_bind {α β : Type} (r : R α) (k : α → R β) : cfg.onResult (r >>= k) = (cfg.onResult r >>= fun a => cfg.onResult (k a)) := by
  unfold BuildCfg.onResult
  cases r with
  | ok a => split <;> rfl
  | error e =>
    split
    · cases e <;> rfl
    · rfl

@[simp] theorem onResult_ok {α : Type} (a : α) : cfg.onResult (.ok a : R α) = .ok a := by
  unfold BuildCfg.onResult; split <;> rfl

theorem gives_build (hf : NoFaults fl) (kind : DictionaryKind) : Gives fl (env.buildDictionary kind src out)
    ((BuildCfg.ofKind kind).onResult (compile env kind src >>= fun _ => .ok ())) := by
  generalize hc : BuildCfg.ofKind kind = cfg
  have he : cfg.onResult (compile env kind src >>= fun _ => (.ok () : R Unit)) = (cfg.onResult (env.compileChardef cfg src) >>= fun d =>
      cfg.onResult (env.compileUnk cfg src d >>= fun _ => .ok ()) >>= fun _ =>
      cfg.onResult (env.readRows cfg src.csvs >>= fun rows => Model.buildDict env.yada cfg.dict rows >>= fun _ => .ok ()) >>= fun _ =>
      cfg.onResult (env.compileMatrix cfg src >>= fun _ => .ok ())) := by
    unfold compile
    rw [hc]
    simp only [← onResult_bind]
    congr 1
    cases env.compileChardef cfg src with
    | error e => rfl
    | ok d =>
      simp only [bind_ok]
      cases env.compileUnk cfg src d with
      | error e => rfl
      | ok u =>
        simp only [bind_ok]
        cases env.readRows cfg src.csvs with
        | error e => rfl
        | ok rows =>
          simp only [bind_ok]
          cases Model.buildDict env.yada cfg.dict rows with
          | error e => rfl
          | ok o =>
            simp only [bind_ok]
            cases env.compileMatrix cfg src <;> rfl
  rw [he]
  unfold BuildEnv.buildDictionary
  rw [hc]
  have := (Gives.osCall hf (.mkdir out)).bind (g := fun _ => _) fun _ _ => (gives_step (cfg := cfg) (gives_chardef (env := env) (cfg := cfg) (src := src) (out := out) hf)).bind
    fun d _ => (gives_step (cfg := cfg) (gives_unk (env := env) (cfg := cfg) (src := src) (out := out) hf d)).bind
    fun _ _ => (gives_step (cfg := cfg) (gives_dict (env := env) (cfg := cfg) (src := src) (out := out) hf)).bind
    fun _ _ => gives_step (cfg := cfg) (gives_matrix (env := env) (cfg := cfg) (src := src) (out := out) hf)
  exact this

end

/-! ### Files -/

theorem final_unwrap {α : Type} {old : Option (List UInt8)} {full : List UInt8} {r : R α} {c : Option (List UInt8)} (h : Final old full r c) :
    Final old full (unwrapErr r) c := by
  rcases h with ⟨⟨a, rfl⟩, h⟩ | ⟨⟨e, rfl⟩, h⟩
  · exact .inl ⟨⟨a, rfl⟩, h⟩
  · refine .inr ⟨?_, h⟩
    cases e <;> exact ⟨_, rfl⟩

theorem finalLoose_unwrap {α : Type} {fl : Faults} {old : Option (List UInt8)} {full : List UInt8} {r : R α} {c : Option (List UInt8)}
    (h : FinalLoose fl old full r c) : FinalLoose fl old full (unwrapErr r) c := by
  rcases h with ⟨⟨a, rfl⟩, h⟩ | ⟨⟨e, rfl⟩, h⟩
  · exact .inl ⟨⟨a, rfl⟩, h⟩
  · refine .inr ⟨?_, h⟩
    cases e <;> exact ⟨_, rfl⟩

theorem Tri.step {α : Type} {fl : Faults} {q : Path} {C : Option (List UInt8) → Prop} {P : Option (List UInt8) → List UInt8 → Prop} {m : W α}
    {Q : R α → Option (List UInt8) → List UInt8 → Prop} (cfg : BuildCfg) (h : Tri fl q C P m Q) (hu : ∀ r c b, Q r c b → Q (unwrapErr r) c b) :
    Tri fl q C P (cfg.step m) Q := by
  unfold BuildCfg.step
  split
  · exact Tri.mapResult (h.conseq (fun _ _ h => h) hu)
  · exact h

/-- Adding what is known about the result. -/
theorem Tri.withResult {α : Type} {fl : Faults} {q : Path} {C : Option (List UInt8) → Prop} {P : Option (List UInt8) → List UInt8 → Prop} {m : W α}
    {Q : R α → Option (List UInt8) → List UInt8 → Prop} {K : R α → Prop} (h : Tri fl q C P m Q) (hk : ∀ s, K (m fl s).1) :
    Tri fl q C P m fun r c b => Q r c b ∧ K r := by
  intro fs s hs
  obtain ⟨new, h1, h2, h3⟩ := h fs s hs
  exact ⟨new, h1, h2, h3, hk s⟩

section
variable {fl : Faults} {env : BuildEnv} {cfg : BuildCfg} {src : SourceDir} {out : Path} {old : Option (List UInt8)} {full : List UInt8} {q : Path}

/-- The steps before the connection matrix. -/
def BuildEnv.buildFront (env : BuildEnv) (cfg : BuildCfg) (src : SourceDir) (out : Path) : W Unit := do
  osCall (.mkdir out)
  let chardef ← cfg.step (env.buildChardef cfg src out)
  cfg.step (env.buildUnk cfg src chardef out)
  cfg.step (env.buildDict cfg src out)

theorem buildDictionary_eq (env : BuildEnv) (kind : DictionaryKind) (src : SourceDir) (out : Path) :
    env.buildDictionary kind src out = (env.buildFront (BuildCfg.ofKind kind) src out >>= fun _ =>
      (BuildCfg.ofKind kind).step (env.buildCostMatrix (BuildCfg.ofKind kind) src out)) := by
  simp only [BuildEnv.buildDictionary, BuildEnv.buildFront, W.bind_assoc]

/-- The character definitions a build continues with are those of the compiler. -/
theorem chardef_result {s : WState} {d : CharDefs} (hd : env.compileChardef cfg src = .ok d) :
    ∀ a, (cfg.step (env.buildChardef cfg src out) fl s).1 = .ok a → a = d := by
  have h : ∀ s a, (env.buildChardef cfg src out fl s).1 = .ok a → a = d := by
    intro s a h
    unfold BuildEnv.buildChardef at h
    simp only [W.bind_def, liftR, hd, W.pure_def] at h
    split at h
    · simpa using h.symm
    · simp at h
  intro a ha
  unfold BuildCfg.step at ha
  split at ha
  · unfold W.mapResult at ha
    dsimp only at ha
    cases hr : (env.buildChardef cfg src out fl s).1 with
    | ok x =>
      rw [hr] at ha
      have : x = a := by simpa [unwrapErr] using ha
      exact this ▸ h s x hr
    | error e => rw [hr] at ha; cases e <;> simp [unwrapErr] at ha
  · exact h s a ha

theorem final_of_done {α : Type} (r : R α) (c : Option (List UInt8)) (h : c = some full) : Final old full r c := by
  cases r with
  | ok a => exact .inl ⟨⟨a, rfl⟩, h⟩
  | error e => exact .inr ⟨⟨e, rfl⟩, .inr ⟨full, h, List.prefix_refl _⟩⟩

/-- Steps that follow the completion of a file. -/
theorem Tri.rest {α : Type} {m : W α} (h : Keeps q m) : Tri fl q (Torn old full) (fun c _ => c = some full) m fun r c _ => Final old full r c :=
  (Tri.keeps h fun _ _ h => .inr ⟨full, h, List.prefix_refl _⟩).conseq (fun _ _ h => h) fun r c _ h => final_of_done r c h

/-- A file that is completed by one step and not touched afterwards. -/
theorem Tri.thenRest {α β : Type} {m : W α} {k : α → W β} (h : Tri fl q (Torn old full) (fun c _ => c = old) m fun r c _ => Final old full r c)
    (hk : ∀ a, Keeps q (k a)) : Tri fl q (Torn old full) (fun c _ => c = old) (m >>= k) fun r c _ => Final old full r c := by
  refine Tri.bind (M := fun _ c _ => c = some full) (h.conseq (fun _ _ h => h) ?_) fun a => Tri.rest (hk a)
  intro r c b h
  cases r with
  | ok a => rcases h with ⟨-, h⟩ | ⟨⟨e, he⟩, -⟩
            · exact h
            · simp at he
  | error e => rcases h with ⟨⟨a, ha⟩, -⟩ | ⟨-, h⟩
               · simp at ha
               · exact .inr ⟨⟨_, rfl⟩, h⟩

/-- Steps before the file is touched. -/
theorem Tri.before {α β : Type} {m : W α} {k : α → W β} (hm : Keeps q m)
    (h : ∀ a, Tri fl q (Torn old full) (fun c _ => c = old) (k a) fun r c _ => Final old full r c) :
    Tri fl q (Torn old full) (fun c _ => c = old) (m >>= k) fun r c _ => Final old full r c :=
  Tri.bindKeep hm old_torn (fun _ _ _ h => .inr ⟨⟨_, rfl⟩, .inl h⟩) h

theorem Tri.beforeLoose {α β : Type} {m : W α} {k : α → W β} (hm : Keeps q m)
    (h : ∀ a, Tri fl q (Torn old full) (fun c _ => c = old) (k a) fun r c _ => FinalLoose fl old full r c) :
    Tri fl q (Torn old full) (fun c _ => c = old) (m >>= k) fun r c _ => FinalLoose fl old full r c :=
  Tri.bindKeep hm old_torn (fun _ _ _ h => .inr ⟨⟨_, rfl⟩, .inl h⟩) h

theorem file_ne {a b : String} (h : a ≠ b) : inDir out a ≠ inDir out b := fun e => h (inDir_inj e)

theorem keeps_front (h0 : inDir out "char_def.bin" ≠ q) (h00 : inDir out "unk.bin" ≠ q) (h1 : inDir out "dict.da" ≠ q) (h2 : inDir out "dict.vals" ≠ q)
    (h3 : inDir out "dict.words" ≠ q) (h4 : inDir out "dict.wordsidx" ≠ q) : Keeps q (env.buildFront cfg src out) :=
  (Keeps.osCall (op := .mkdir out) trivial).bind fun _ => ((keeps_chardef h0).step cfg).bind fun _ => ((keeps_unk h00).step cfg).bind fun _ => (keeps_dict h1 h2 h3 h4).step cfg

theorem front_chardef (hp : PiecesOk env) {d : CharDefs} (hd : env.compileChardef cfg src = .ok d) :
    Tri fl (inDir out "char_def.bin") (Torn old (env.stored d.bytes)) (fun c _ => c = old) (env.buildFront cfg src out)
      fun r c _ => Final old (env.stored d.bytes) r c := by
  refine Tri.before (Keeps.osCall trivial) fun _ => Tri.thenRest (Tri.step cfg (chardef_file hp hd) fun _ _ _ => final_unwrap) fun _ => ?_
  exact ((keeps_unk (file_ne (by decide))).step cfg).bind fun _ =>
    (keeps_dict (file_ne (by decide)) (file_ne (by decide)) (file_ne (by decide)) (file_ne (by decide))).step cfg

theorem front_unk (hp : PiecesOk env) {d : CharDefs} {u : UnkDict} (hd : env.compileChardef cfg src = .ok d) (hu : env.compileUnk cfg src d = .ok u) :
    Tri fl (inDir out "unk.bin") (Torn old (env.stored u.bytes)) (fun c _ => c = old) (env.buildFront cfg src out)
      fun r c _ => Final old (env.stored u.bytes) r c := by
  refine Tri.before (Keeps.osCall trivial) fun _ => ?_
  refine Tri.bind (M := fun a c _ => c = old ∧ a = d) (((Tri.keeps ((keeps_chardef (file_ne (by decide))).step cfg) old_torn).withResult
    (K := fun r => ∀ a, r = .ok a → a = d) fun s => chardef_result hd).conseq (fun _ _ h => h) ?_) fun a => ?_
  · rintro r c b ⟨h1, h2⟩
    cases r with
    | ok a => exact ⟨h1, h2 a rfl⟩
    | error e => exact .inr ⟨⟨_, rfl⟩, .inl h1⟩
  · by_cases ha : a = d
    · subst ha
      exact (Tri.thenRest (Tri.step cfg (unk_file hp hu) fun _ _ _ => final_unwrap) fun _ =>
        (keeps_dict (file_ne (by decide)) (file_ne (by decide)) (file_ne (by decide)) (file_ne (by decide))).step cfg).conseq (fun _ _ h => h.1) fun _ _ _ h => h
    · intro fs s hs; exact absurd hs.2 ha

theorem front_dict {Q : R Unit → Option (List UInt8) → Prop} (h1 : inDir out "char_def.bin" ≠ q) (h2 : inDir out "unk.bin" ≠ q)
    (hQ : ∀ e c, c = old → Q (.error e) c)
    (h : Tri fl q (Torn old full) (fun c _ => c = old) (env.buildDict cfg src out) fun r c _ => Q r c) (hu : ∀ r c, Q r c → Q (unwrapErr r) c) :
    Tri fl q (Torn old full) (fun c _ => c = old) (env.buildFront cfg src out) fun r c _ => Q r c :=
  Tri.bindKeep (Keeps.osCall (op := .mkdir out) trivial) old_torn (fun _ _ _ h => hQ _ _ h) fun _ => Tri.bindKeep ((keeps_chardef h1).step cfg) old_torn (fun _ _ _ h => hQ _ _ h)
    fun _ => Tri.bindKeep ((keeps_unk h2).step cfg) old_torn (fun _ _ _ h => hQ _ _ h) fun _ => Tri.step cfg h fun _ _ _ => hu _ _

end

end Verif.Model
