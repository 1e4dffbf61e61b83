import Verif.Proofs.BuildRun
import Mathlib.Tactic.Tauto
/-! A whole dictionary build: the state of every file at every crash point and at the end, under any faults. -/
namespace Verif.Model
open Verif.Spec

/-! ### A build that succeeds has compiled everything -/

/-- Success of the program, under any faults, means that the computation succeeds with the same value. -/
def Sound {α : Type} (m : W α) (r : R α) : Prop := ∀ fl s a, (m fl s).1 = .ok a → r = .ok a

namespace Sound
variable {α β : Type}

theorem pure (a : α) : Sound (Pure.pure a : W α) (.ok a) := fun _ _ _ h => h
theorem liftR (r : R α) : Sound (Model.liftR r) r := fun _ _ _ h => h
theorem unit (m : W Unit) : Sound m (.ok ()) := fun _ _ _ _ => rfl

theorem bind {m : W α} {k : α → W β} {r : R α} {g : α → R β} (hm : Sound m r) (hk : ∀ a, Sound (k a) (g a)) : Sound (m >>= k) (r >>= g) := by
  intro fl s b h
  rw [W.bind_def] at h
  rcases hr : m fl s with ⟨x, s'⟩
  rw [hr] at h
  cases x with
  | error e => simp at h
  | ok a =>
    dsimp only at h
    rw [hm fl s a (by rw [hr]), bind_ok]
    exact hk a fl s' b h

theorem withWriter {p : Path} {body : W α} {r : R α} (h : Sound body r) : Sound (Model.withWriter p body) r := by
  intro fl s a ha
  unfold Model.withWriter at ha
  split at ha
  · simp at ha
  · exact h _ _ _ ha

theorem step {cfg : BuildCfg} {m : W α} {r : R α} (h : Sound m r) : Sound (cfg.step m) r := by
  intro fl s a ha
  unfold BuildCfg.step at ha
  split at ha
  · unfold W.mapResult at ha
    dsimp only at ha
    cases hr : (m fl s).1 with
    | ok x =>
      rw [hr] at ha
      have : x = a := by simpa [unwrapErr] using ha
      exact this ▸ h fl s x hr
    | error e => rw [hr] at ha; cases e <;> simp [unwrapErr] at ha
  · exact h fl s a ha

end Sound

section
variable {fl : Faults} {env : BuildEnv} {cfg : BuildCfg} {src : SourceDir} {out : Path} {old : Option (List UInt8)} {full : List UInt8} {q : Path}

theorem sound_chardef : Sound (env.buildChardef cfg src out) (env.compileChardef cfg src) := by
  have := Sound.bind (Sound.liftR (env.compileChardef cfg src)) (g := fun d => Except.ok () >>= fun _ => Except.ok d)
    (k := fun d => withWriter (inDir out "char_def.bin") (do env.writeData (inDir out "char_def.bin") d.bytes; flushBuf (inDir out "char_def.bin")) >>= fun _ => Pure.pure d)
    fun d => (Sound.unit _).bind fun _ => Sound.pure d
  have he : (env.compileChardef cfg src >>= fun d => (Except.ok () : R Unit) >>= fun _ => Except.ok d) = env.compileChardef cfg src := by
    cases env.compileChardef cfg src <;> rfl
  rw [he] at this
  exact this

theorem sound_unk (d : CharDefs) : Sound (env.buildUnk cfg src d out) (env.compileUnk cfg src d >>= fun _ => .ok ()) :=
  (Sound.liftR _).bind fun _ => Sound.unit _

theorem sound_matrix : Sound (env.buildCostMatrix cfg src out) (env.compileMatrix cfg src >>= fun _ => .ok ()) :=
  (Sound.liftR _).bind fun _ => Sound.unit _

theorem sound_dict : Sound (env.buildDict cfg src out)
    (env.readRows cfg src.csvs >>= fun rows => Model.buildDict env.yada cfg.dict rows >>= fun _ => .ok ()) := by
  refine Sound.bind (Sound.liftR _) fun rows => ?_
  have he : (Model.buildDict env.yada cfg.dict rows >>= fun _ => (.ok () : R Unit)) = (cfg.dict.entryMap (sortByKey cfg.dict.rowKey rows) >>= fun m =>
      (sortByKey cfg.dict.rowKey rows).foldlM (init := ([], [])) cfg.dict.pushDetails >>= fun _ => env.doubleArray m >>= fun _ => .ok ()) := by
    rw [buildDict_steps]
    cases cfg.dict.entryMap (sortByKey cfg.dict.rowKey rows) with
    | error e => rfl
    | ok m =>
      simp only [bind_ok]
      cases (sortByKey cfg.dict.rowKey rows).foldlM (init := ([], [])) cfg.dict.pushDetails with
      | error e => rfl
      | ok b =>
        simp only [bind_ok]
        unfold BuildEnv.doubleArray
        cases env.yada (keyset 0 m) <;> rfl
  rw [he]
  refine Sound.withWriter (Sound.withWriter (Sound.bind (Sound.liftR _) fun m => Sound.withWriter (Sound.withWriter ?_)))
  refine Sound.bind (Sound.liftR _) fun bufs => ?_
  refine (Sound.unit _).bind (g := fun _ => env.doubleArray m >>= fun _ => .ok ()) fun _ => ?_
  refine (Sound.unit _).bind (g := fun _ => env.doubleArray m >>= fun _ => .ok ()) fun _ => ?_
  refine (Sound.unit _).bind (g := fun _ => env.doubleArray m >>= fun _ => .ok ()) fun _ => ?_
  refine (Sound.unit _).bind (g := fun _ => env.doubleArray m >>= fun _ => .ok ()) fun _ => ?_
  exact Sound.bind (Sound.liftR _) fun a => Sound.unit _

/-- What the steps before the matrix compile. -/
def compileFront (env : BuildEnv) (cfg : BuildCfg) (src : SourceDir) : R (CharDefs × UnkDict × DictFiles) := do
  let chardef ← env.compileChardef cfg src
  let unk ← env.compileUnk cfg src chardef
  let rows ← env.readRows cfg src.csvs
  let dict ← Model.buildDict env.yada cfg.dict rows
  return (chardef, unk, dict)

theorem compile_eq (kind : DictionaryKind) : compile env kind src = (compileFront env (BuildCfg.ofKind kind) src >>= fun f =>
    env.compileMatrix (BuildCfg.ofKind kind) src >>= fun m => .ok ⟨f.1, f.2.1, f.2.2, m⟩) := by
  unfold compile compileFront
  generalize BuildCfg.ofKind kind = cfg
  dsimp only
  cases env.compileChardef cfg src with
  | error e => rfl
  | ok d =>
    simp only [bind_ok]
    cases env.compileUnk cfg src d with
    | error e => rfl
    | ok u =>
      simp only [bind_ok]
      cases env.readRows cfg src.csvs with
      | error e => rfl
      | ok rows =>
        simp only [bind_ok]
        cases Model.buildDict env.yada cfg.dict rows <;> rfl

theorem sound_front : Sound (env.buildFront cfg src out) (compileFront env cfg src >>= fun _ => .ok ()) := by
  have h := (Sound.unit (osCall (.mkdir out))).bind (g := fun _ => _) fun _ => (Sound.step (cfg := cfg) (sound_chardef (env := env) (cfg := cfg) (src := src) (out := out))).bind
    fun d => (Sound.step (cfg := cfg) (sound_unk (env := env) (cfg := cfg) (src := src) (out := out) d)).bind
    fun _ => Sound.step (cfg := cfg) (sound_dict (env := env) (cfg := cfg) (src := src) (out := out))
  have he : (compileFront env cfg src >>= fun _ => (.ok () : R Unit)) = ((.ok () : R Unit) >>= fun _ => env.compileChardef cfg src >>= fun d =>
      (env.compileUnk cfg src d >>= fun _ => (.ok () : R Unit)) >>= fun _ =>
      (env.readRows cfg src.csvs >>= fun rows => Model.buildDict env.yada cfg.dict rows >>= fun _ => .ok ())) := by
    unfold compileFront
    cases env.compileChardef cfg src with
    | error e => rfl
    | ok d =>
      simp only [bind_ok]
      cases env.compileUnk cfg src d with
      | error e => rfl
      | ok u =>
        simp only [bind_ok]
        cases env.readRows cfg src.csvs with
        | error e => rfl
        | ok rows =>
          simp only [bind_ok]
          cases Model.buildDict env.yada cfg.dict rows <;> rfl
  rw [he]
  exact h

theorem sound_build (kind : DictionaryKind) : Sound (env.buildDictionary kind src out) (compile env kind src >>= fun _ => .ok ()) := by
  rw [buildDictionary_eq]
  have h := (sound_front (env := env) (cfg := BuildCfg.ofKind kind) (src := src) (out := out)).bind
    (k := fun _ => (BuildCfg.ofKind kind).step (env.buildCostMatrix (BuildCfg.ofKind kind) src out)) fun _ => Sound.step sound_matrix
  have he : (compile env kind src >>= fun _ => (.ok () : R Unit)) = ((compileFront env (BuildCfg.ofKind kind) src >>= fun _ => (.ok () : R Unit)) >>= fun _ =>
      env.compileMatrix (BuildCfg.ofKind kind) src >>= fun _ => .ok ()) := by
    rw [compile_eq]
    cases compileFront env (BuildCfg.ofKind kind) src with
    | error e => rfl
    | ok f =>
      simp only [bind_ok]
      cases env.compileMatrix (BuildCfg.ofKind kind) src <;> rfl
  rw [he]
  exact h

/-! ### The files -/

theorem dictSteps {rows : List Row} {o : DictFiles} (hr : env.readRows cfg src.csvs = .ok rows) (hd : Model.buildDict env.yada cfg.dict rows = .ok o) :
    Nonempty (DictSteps env cfg src o) := by
  rw [buildDict_steps] at hd
  obtain ⟨m, hm, hd⟩ := bind_eq_ok.mp hd
  obtain ⟨b, hb, hd⟩ := bind_eq_ok.mp hd
  cases hy : env.yada (keyset 0 m) with
  | none => rw [hy] at hd; simp at hd
  | some da =>
    rw [hy] at hd
    have := Except.ok.inj hd
    subst this
    exact ⟨⟨rows, m, hr, hm, hb, by unfold BuildEnv.doubleArray; rw [hy], rfl⟩⟩

theorem compileFront_ok {f : CharDefs × UnkDict × DictFiles} (h : compileFront env cfg src = .ok f) :
    env.compileChardef cfg src = .ok f.1 ∧ env.compileUnk cfg src f.1 = .ok f.2.1 ∧ Nonempty (DictSteps env cfg src f.2.2) := by
  unfold compileFront at h
  obtain ⟨d, hd, h⟩ := bind_eq_ok.mp h
  obtain ⟨u, hu, h⟩ := bind_eq_ok.mp h
  obtain ⟨rows, hr, h⟩ := bind_eq_ok.mp h
  obtain ⟨o, ho, h⟩ := bind_eq_ok.mp h
  have := Except.ok.inj h
  subst this
  exact ⟨hd, hu, dictSteps hr ho⟩

/-- The files of the first three steps. -/
def frontFiles (f : CharDefs × UnkDict × DictFiles) (format : DaFormat) : List (String × List UInt8) :=
  [("char_def.bin", f.1.bytes), ("unk.bin", f.2.1.bytes), ("dict.da", format.store f.2.2.da), ("dict.vals", f.2.2.vals),
   ("dict.words", f.2.2.words), ("dict.wordsidx", f.2.2.wordsIdx)]

/-- The end of a step that produces a file: complete after success, except that `dict.da` may be cut short if a call failed. -/
def FinalFor {α : Type} (fl : Faults) (name : String) (old : Option (List UInt8)) (full : List UInt8) (r : R α) (c : Option (List UInt8)) : Prop :=
  ((∃ a, r = .ok a) → c = some full ∨ (name = "dict.da" ∧ ¬ NoFaults fl)) ∧ Torn old full c ∧ ((∃ a, r = .ok a) → ∃ x, c = some x ∧ x <+: full)

theorem Final.for {α : Type} {name : String} {r : R α} {c : Option (List UInt8)} (h : Final old full r c) : FinalFor fl name old full r c := by
  rcases h with ⟨⟨a, rfl⟩, h⟩ | ⟨⟨e, rfl⟩, h⟩
  · exact ⟨fun _ => .inl h, .inr ⟨full, h, List.prefix_refl _⟩, fun _ => ⟨_, h, List.prefix_refl _⟩⟩
  · exact ⟨fun ⟨a, ha⟩ => by simp at ha, h, fun ⟨a, ha⟩ => by simp at ha⟩

theorem FinalLoose.for {α : Type} {r : R α} {c : Option (List UInt8)} (h : FinalLoose fl old full r c) : FinalFor fl "dict.da" old full r c := by
  rcases h with ⟨⟨a, rfl⟩, x, h1, h2, h3⟩ | ⟨⟨e, rfl⟩, h⟩
  · refine ⟨fun _ => ?_, .inr ⟨x, h1, h2⟩, fun _ => ⟨x, h1, h2⟩⟩
    by_cases hf : NoFaults fl
    · exact .inl (by rw [h1, h3 hf])
    · exact .inr ⟨rfl, hf⟩
  · exact ⟨fun ⟨a, ha⟩ => by simp at ha, h, fun ⟨a, ha⟩ => by simp at ha⟩

theorem front_files (hp : PiecesOk env) {f : CharDefs × UnkDict × DictFiles} (hf : compileFront env cfg src = .ok f) :
    ∀ e ∈ frontFiles f env.format, ∀ old, Tri fl (inDir out e.1) (Torn old (env.stored e.2)) (fun c _ => c = old) (env.buildFront cfg src out)
      fun r c _ => FinalFor fl e.1 old (env.stored e.2) r c := by
  obtain ⟨h1, h2, ⟨h3⟩⟩ := compileFront_ok hf
  intro e he old
  simp only [frontFiles, List.mem_cons, List.not_mem_nil, or_false] at he
  have hQ : ∀ (full : List UInt8) (e : Fail) (c : Option (List UInt8)), c = old → Final (α := Unit) old full (.error e) c := fun _ _ _ h => .inr ⟨⟨_, rfl⟩, .inl h⟩
  rcases he with rfl | rfl | rfl | rfl | rfl | rfl
  · exact (front_chardef hp h1).conseq (fun _ _ h => h) fun _ _ _ h => h.for
  · exact (front_unk hp h1 h2).conseq (fun _ _ h => h) fun _ _ _ h => h.for
  · exact (front_dict (Q := FinalLoose fl old _) (file_ne (by decide)) (file_ne (by decide)) (fun _ _ h => .inr ⟨⟨_, rfl⟩, .inl h⟩) (da_file hp h3)
      fun _ _ => finalLoose_unwrap).conseq (fun _ _ h => h) fun _ _ _ h => h.for
  · exact (front_dict (Q := Final old _) (file_ne (by decide)) (file_ne (by decide)) (hQ _) (vals_file hp h3) fun _ _ => final_unwrap).conseq
      (fun _ _ h => h) fun _ _ _ h => h.for
  · exact (front_dict (Q := Final old _) (file_ne (by decide)) (file_ne (by decide)) (hQ _) (words_file hp h3) fun _ _ => final_unwrap).conseq
      (fun _ _ h => h) fun _ _ _ h => h.for
  · exact (front_dict (Q := Final old _) (file_ne (by decide)) (file_ne (by decide)) (hQ _) (idx_file hp h3) fun _ _ => final_unwrap).conseq
      (fun _ _ h => h) fun _ _ _ h => h.for

theorem frontFiles_names {f : CharDefs × UnkDict × DictFiles} {format : DaFormat} : ∀ e ∈ frontFiles f format, inDir out "matrix.mtx" ≠ inDir out e.1 := by
  intro e he
  simp only [frontFiles, List.mem_cons, List.not_mem_nil, or_false] at he
  rcases he with rfl | rfl | rfl | rfl | rfl | rfl <;> exact file_ne (by dsimp only; decide)

theorem keeps_front_matrix : Keeps (inDir out "matrix.mtx") (env.buildFront cfg src out) :=
  keeps_front (file_ne (by decide)) (file_ne (by decide)) (file_ne (by decide)) (file_ne (by decide)) (file_ne (by decide)) (file_ne (by decide))

/-- How a build ends, from the start state: either the first part fails, or it succeeds and the matrix is written. -/
theorem build_split (fl : Faults) (kind : DictionaryKind) (src : SourceDir) (out : Path) :
    let front := env.buildFront (BuildCfg.ofKind kind) src out
    let mat := (BuildCfg.ofKind kind).step (env.buildCostMatrix (BuildCfg.ofKind kind) src out)
    ((∃ e, front.result fl = .error e ∧ (env.buildDictionary kind src out).result fl = .error e) ∧
        (env.buildDictionary kind src out).trace fl = front.trace fl) ∨
      (front.result fl = .ok () ∧ (env.buildDictionary kind src out).result fl = (mat fl (front fl .start).2).1 ∧
        (env.buildDictionary kind src out).trace fl = (mat fl (front fl .start).2).2.ops) := by
  intro front mat
  unfold W.result W.trace
  rw [buildDictionary_eq, W.bind_def]
  rcases hr : env.buildFront (BuildCfg.ofKind kind) src out fl .start with ⟨r, s⟩
  cases r with
  | error e => exact .inl ⟨⟨e, by simp only [front, hr], rfl⟩, by simp only [front, hr]⟩
  | ok a => exact .inr ⟨by simp only [front, hr], by simp only [front, hr, mat], by simp only [front, hr, mat]⟩

theorem tri_start {α : Type} {m : W α} {C : Option (List UInt8) → Prop} {Q : R α → Option (List UInt8) → List UInt8 → Prop} {fs : Fs}
    (h : Tri fl q C (fun c _ => c = fs q) m Q) :
    (∀ fs', Crashed fs (m.trace fl) fs' → C (fs' q)) ∧ Q (m.result fl) (runOps fs (m.trace fl) q) ((m fl .start).2.buf q) := by
  obtain ⟨new, h1, h2, h3⟩ := h fs .start rfl
  have h1 : (m fl .start).2.ops = new := by simpa [WState.start] using h1
  unfold W.trace W.result
  rw [h1] at h3 ⊢
  exact ⟨h2, h3⟩

theorem keeps_start {α : Type} {m : W α} (h : Keeps q m) (fs : Fs) :
    (∀ fs', Crashed fs (m.trace fl) fs' → fs' q = fs q) ∧ runOps fs (m.trace fl) q = fs q := by
  obtain ⟨new, h1, h2, -⟩ := h fl .start
  have h1 : (m fl .start).2.ops = new := by simpa [WState.start] using h1
  unfold W.trace
  rw [h1]
  exact ⟨fun fs' hc => crashed_avoids h2 hc, runOps_avoids h2 fs⟩

theorem files_cases {c : CompiledParts} {format : DaFormat} {e : String × List UInt8} (he : e ∈ c.files format) :
    e ∈ frontFiles (c.chardef, c.unk, c.dict) format ∨ e = ("matrix.mtx", c.matrix) := by
  simp only [CompiledParts.files, frontFiles, List.mem_cons, List.not_mem_nil, or_false] at he ⊢
  tauto

theorem compile_ok {kind : DictionaryKind} {c : CompiledParts} (h : compile env kind src = .ok c) :
    compileFront env (BuildCfg.ofKind kind) src = .ok (c.chardef, c.unk, c.dict) ∧ env.compileMatrix (BuildCfg.ofKind kind) src = .ok c.matrix := by
  rw [compile_eq] at h
  obtain ⟨f, hf, h⟩ := bind_eq_ok.mp h
  obtain ⟨m, hm, h⟩ := bind_eq_ok.mp h
  have := Except.ok.inj h
  subst this
  exact ⟨hf, hm⟩

/-- Every file, at every crash point and at the end, under any faults. -/
theorem build_file (hp : PiecesOk env) {kind : DictionaryKind} {c : CompiledParts} (hc : compile env kind src = .ok c) (fs : Fs) :
    ∀ e ∈ c.files env.format, (∀ fs', Crashed fs ((env.buildDictionary kind src out).trace fl) fs' → Torn (fs (inDir out e.1)) (env.stored e.2) (fs' (inDir out e.1))) ∧
      FinalFor fl e.1 (fs (inDir out e.1)) (env.stored e.2) ((env.buildDictionary kind src out).result fl)
        (runOps fs ((env.buildDictionary kind src out).trace fl) (inDir out e.1)) := by
  obtain ⟨hf, hm⟩ := compile_ok hc
  intro e he
  refine tri_start (Q := fun r c _ => FinalFor fl e.1 (fs (inDir out e.1)) (env.stored e.2) r c) ?_
  rw [buildDictionary_eq]
  rcases files_cases he with he | rfl
  · refine Tri.bind (M := fun _ c _ => FinalFor fl e.1 (fs (inDir out e.1)) (env.stored e.2) (.ok ()) c)
      ((front_files hp hf e he _).conseq (fun _ _ h => h) ?_) fun _ => ?_
    · rintro r c b h
      cases r with
      | ok a => exact h
      | error e => exact ⟨fun ⟨a, ha⟩ => by simp at ha, h.2.1, fun ⟨a, ha⟩ => by simp at ha⟩
    · refine (Tri.keeps ((keeps_matrix (frontFiles_names e he)).step _) fun c b h => h.2.1).conseq (fun _ _ h => h) fun r c b h => ?_
      exact ⟨fun _ => h.1 ⟨_, rfl⟩, h.2.1, fun _ => h.2.2 ⟨_, rfl⟩⟩
  · refine (Tri.before keeps_front_matrix fun _ => Tri.step _ (matrix_file hp hm) fun _ _ _ => final_unwrap).conseq (fun _ _ h => h) fun _ _ _ h => h.for

/-- Paths outside the seven files. -/
theorem build_other {kind : DictionaryKind} (h : ∀ n ∈ ["char_def.bin", "unk.bin", "dict.da", "dict.vals", "dict.words", "dict.wordsidx", "matrix.mtx"], inDir out n ≠ q)
    (fs : Fs) : (∀ fs', Crashed fs ((env.buildDictionary kind src out).trace fl) fs' → fs' q = fs q) ∧
      runOps fs ((env.buildDictionary kind src out).trace fl) q = fs q := by
  refine keeps_start ?_ fs
  rw [buildDictionary_eq]
  exact (keeps_front (h _ (by simp)) (h _ (by simp)) (h _ (by simp)) (h _ (by simp)) (h _ (by simp)) (h _ (by simp))).bind fun _ => (keeps_matrix (h _ (by simp))).step _

/-- The matrix is the last file: until it is touched everything else is complete. -/
theorem build_order (hp : PiecesOk env) {kind : DictionaryKind} {c : CompiledParts} (hc : compile env kind src = .ok c) (fs fs' : Fs)
    (h : Crashed fs ((env.buildDictionary kind src out).trace fl) fs') : fs' (inDir out "matrix.mtx") = fs (inDir out "matrix.mtx") ∨
      ∀ e ∈ c.files env.format, e.1 ≠ "matrix.mtx" → fs' (inDir out e.1) = some (env.stored e.2) ∨ (e.1 = "dict.da" ∧ ¬ NoFaults fl) := by
  obtain ⟨hf, hm⟩ := compile_ok hc
  rcases build_split (env := env) fl kind src out with ⟨-, ht⟩ | ⟨hr, -, ht⟩
  · rw [ht] at h
    exact .inl ((keeps_start keeps_front_matrix fs).1 _ h)
  · rw [ht] at h
    have hk : ∀ e ∈ frontFiles (c.chardef, c.unk, c.dict) env.format, Keeps (inDir out e.1)
        ((BuildCfg.ofKind kind).step (env.buildCostMatrix (BuildCfg.ofKind kind) src out)) := fun e he => (keeps_matrix (frontFiles_names e he)).step _
    obtain ⟨new, hn, -, -⟩ := (keeps_matrix (env := env) (cfg := BuildCfg.ofKind kind) (src := src) (out := out) (q := inDir out "char_def.bin")
      (file_ne (by decide))).step (BuildCfg.ofKind kind) fl (env.buildFront (BuildCfg.ofKind kind) src out fl .start).2
    rw [hn] at h
    rcases crashed_append h with h | h
    · exact .inl ((keeps_start keeps_front_matrix fs).1 _ h)
    · refine .inr fun e he hne => ?_
      rcases files_cases he with he | rfl
      · obtain ⟨new', hn', ha, -⟩ := hk e he fl (env.buildFront (BuildCfg.ofKind kind) src out fl .start).2
        have : new' = new := List.append_cancel_left (hn'.symm.trans hn)
        subst this
        rw [crashed_avoids ha h]
        exact (tri_start (Q := fun r c _ => FinalFor fl e.1 (fs (inDir out e.1)) (env.stored e.2) r c) (front_files hp hf e he _)).2.1 ⟨(), hr⟩
      · exact absurd rfl hne

/-- Sources that do not compile: the matrix is not touched. -/
theorem build_failed {kind : DictionaryKind} {e : Fail} (hc : compile env kind src = .error e) (fs : Fs) :
    (∀ fs', Crashed fs ((env.buildDictionary kind src out).trace fl) fs' → fs' (inDir out "matrix.mtx") = fs (inDir out "matrix.mtx")) ∧
      runOps fs ((env.buildDictionary kind src out).trace fl) (inDir out "matrix.mtx") = fs (inDir out "matrix.mtx") := by
  rw [compile_eq] at hc
  cases hm : env.compileMatrix (BuildCfg.ofKind kind) src with
  | error e' =>
    refine keeps_start ?_ fs
    rw [buildDictionary_eq]
    refine keeps_front_matrix.bind fun _ => Keeps.step _ ?_
    intro fl s
    exact ⟨[], by simp [BuildEnv.buildCostMatrix, W.bind_def, liftR, hm], by simp, by simp [BuildEnv.buildCostMatrix, W.bind_def, liftR, hm]⟩
  | ok m =>
    rcases build_split (env := env) fl kind src out with ⟨-, ht⟩ | ⟨hr, -, ht⟩
    · rw [ht]; exact keeps_start keeps_front_matrix fs
    · exfalso
      have := sound_front fl .start () hr
      rw [hm] at hc
      cases hf : compileFront env (BuildCfg.ofKind kind) src with
      | error e' => rw [hf] at this; simp at this
      | ok f => rw [hf] at hc; simp at hc

/-! ### User dictionaries -/

theorem user_file (hp : PiecesOk env) (u : UserDictionary) (p : Path) :
    Tri fl p (Torn old (u.bytes env.format)) (fun c _ => c = old) (env.buildUserDictionary u p) fun r c _ => Final old (u.bytes env.format) r c := by
  refine Tri.before (Keeps.osCall (op := .mkdir p) trivial) fun _ => withWriter_flushed ?_
  have h := forM_writeAll_self (fl := fl) (q := p) (old := old) (x := []) (full := u.bytes env.format) (env.pieces (u.bytes env.format))
    (by rw [hp]; exact List.prefix_refl _)
  rw [hp, List.nil_append] at h
  refine Tri.bind (M := fun _ => Open (u.bytes env.format)) (Tri.mapResult (h.conseq (fun _ _ h => h) ?_)) fun _ => flushLast
  rintro r c b (⟨rfl, h⟩ | ⟨-, rfl, h⟩)
  · exact h
  · exact .inr ⟨⟨_, rfl⟩, h⟩

theorem user_keeps (u : UserDictionary) {p : Path} (h : p ≠ q) : Keeps q (env.buildUserDictionary u p) :=
  (Keeps.osCall (op := .mkdir p) trivial).bind fun _ => Keeps.withWriter h
    (Keeps.bind (fun fl s => Keeps.forM (q := q) _ (fun _ => Keeps.writeAll h _) fl s) fun _ => Keeps.flushBuf h)

theorem user_gives (hf : NoFaults fl) (u : UserDictionary) (p : Path) : Gives fl (env.buildUserDictionary u p) (.ok ()) :=
  (Gives.osCall hf (.mkdir p)).bind (g := fun _ => .ok ()) fun _ _ => Gives.withWriter hf p
    (((Gives.forM _ fun _ => Gives.writeAll hf p _).mapResult serializeErr).bind (g := fun _ => .ok ()) fun _ _ => Gives.flushBuf hf p)

end

end Verif.Model
