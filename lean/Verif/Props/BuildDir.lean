import Verif.Props.Builder
import Verif.Props.Storage
import Verif.Proofs.BuildAll
import Verif.Proofs.BuildFaults
import Verif.Proofs.CutMatrix
import Verif.Proofs.CompressedDir
/-! Building dictionaries on disk: C59–C63. -/
namespace Verif.Props
open Verif.Model Verif.Spec

/-! ### A source directory for the examples -/
namespace Dir

/-- CSV without quotes. -/
def csv (_ : Bool) (_ : Encoding) (bytes : List UInt8) : Option (List Row) :=
  (decodeUtf8 bytes).map fun text => (lines text).map fun l =>
    match splitAll (· = ',') l with
    | [] => ⟨[], []⟩
    | s :: rest => ⟨s, rest⟩

/-- Bytes are handed to the writers one at a time. -/
def env : BuildEnv where
  feature := false
  flate := Stored.flate
  format := Stored.format
  yada := Src.yada
  decode _ bytes := (decodeUtf8 bytes).getD []
  csv := csv
  pieces bytes := bytes.map fun b => [b]
  hashOrder index := index

theorem pieces : PiecesOk env := by
  intro data
  simp only [env]
  induction data with
  | nil => rfl
  | cons b bs ih => simp [ih]

def bytesOf (s : String) : Option (List UInt8) := some (utf8 s.toList)

def source : SourceDir :=
  ⟨bytesOf "DEFAULT 0 1 0\n", bytesOf "DEFAULT,0,0,100,a,b,c,d,e,f\n", bytesOf "1 1\n0 0 5\n", [bytesOf "b,0,0,3,x\n", bytesOf "a,0,0,-3,y,z\n"]⟩

/-- Another version of the sources. -/
def newer : SourceDir := { source with matrix := bytesOf "1 1\n0 0 9\n", csvs := [bytesOf "c,0,0,4,x\n"] }

/-- Sources with a broken connection matrix. -/
def broken : SourceDir := { source with matrix := bytesOf "1 x\n" }

def out : Path := utf8 "out".toList

/-- No call fails. -/
def noFaults : Faults := fun _ => none

/-- The `n`-th call fails at once. -/
def failAt (n : Nat) : Faults := fun i => if i = n then some 0 else none

/-- An empty disk. -/
def empty : Fs := fun _ => none

/-- Loading from a disk. -/
def loader (fs : Fs) : LoadEnv := ⟨⟨false, false, false, false, false⟩, fun _ => .error .panic, fs, Stored.format, Src.yada, fun _ => none⟩

end Dir

namespace Dir
/-- The compiled sources. -/
def compiled : CompiledParts := match compile env .unidic source with | .ok c => c | .error _ => ⟨⟨[], [], ⟨[], []⟩⟩, ⟨[], []⟩, ⟨⟨[]⟩, [], [], []⟩, []⟩
theorem compiles : compile env .unidic source = .ok compiled := by
  have h : (compile env .unidic source).toOption.isSome = true := by decide +kernel
  unfold compiled
  cases hc : compile env .unidic source with
  | ok c => rfl
  | error e => rw [hc] at h; simp [Except.toOption] at h

/-- The error of a failed compilation. -/
def errorOf {α : Type} : R α → Option Fail
  | .ok _ => none
  | .error e => some e

theorem errorOf_eq {α : Type} {r : R α} {e : Fail} (h : errorOf r = some e) : r = .error e := by
  cases r with
  | ok a => simp [errorOf] at h
  | error e' => rw [Option.some.inj h]
end Dir

/-! ### C59 Building a dictionary directory -/

/-- C59: if the sources compile and no file operation fails, building succeeds, and then each of the seven files holds exactly what was compiled, whatever the directory
contained before; no other file is changed. -/
theorem c59_build (env : BuildEnv) (hp : PiecesOk env) (kind : DictionaryKind) (src : SourceDir) (c : CompiledParts) (hc : compile env kind src = .ok c)
    (out : Path) (faults : Faults) (hf : NoFaults faults) (fs : Fs) :
    (env.buildDictionary kind src out).result faults = .ok () ∧
    (∀ e ∈ c.files env.format, runOps fs ((env.buildDictionary kind src out).trace faults) (inDir out e.1) =
      some (compressWrite env.feature env.flate e.2 .deflate)) ∧
    ∀ q, (∀ e ∈ c.files env.format, inDir out e.1 ≠ q) → runOps fs ((env.buildDictionary kind src out).trace faults) q = fs q := by
  have hr : (env.buildDictionary kind src out).result faults = .ok () := by
    have := gives_build (env := env) (src := src) (out := out) hf kind .start
    rw [hc] at this
    unfold W.result
    simpa using this
  refine ⟨hr, fun e he => ?_, fun q hq => ?_⟩
  · rcases (build_file (out := out) (fl := faults) hp hc fs e he).2.1 ⟨(), hr⟩ with h | ⟨-, h⟩
    · exact h
    · exact absurd hf h
  · refine (build_other (fl := faults) (env := env) (src := src) (kind := kind) (fun n hn => ?_) fs).2
    simp only [CompiledParts.files, List.mem_cons, List.not_mem_nil, or_false, forall_eq_or_imp, forall_eq] at hq
    simp only [List.mem_cons, List.not_mem_nil, or_false] at hn
    rcases hn with rfl | rfl | rfl | rfl | rfl | rfl | rfl
    exacts [hq.1, hq.2.1, hq.2.2.1, hq.2.2.2.1, hq.2.2.2.2.1, hq.2.2.2.2.2.1, hq.2.2.2.2.2.2]

/-- C59: building reports success only if the sources compile, even if file operations fail. -/
theorem c59_success (env : BuildEnv) (kind : DictionaryKind) (src : SourceDir) (out : Path) (faults : Faults)
    (h : (env.buildDictionary kind src out).result faults = .ok ()) : ∃ c, compile env kind src = .ok c := by
  have := sound_build (env := env) kind faults .start () h
  cases hc : compile env kind src with
  | ok c => exact ⟨c, rfl⟩
  | error e => rw [hc] at this; simp at this

/-- C59: the error found in the sources is returned. For the Korean and Chinese builders this is false, see below. -/
theorem c59_errors_partial (env : BuildEnv) (kind : DictionaryKind) (hk : kind ≠ .koDic ∧ kind ≠ .ccCedict) (src : SourceDir) (e : Fail)
    (hc : compile env kind src = .error e) (out : Path) (faults : Faults) (hf : NoFaults faults) :
    (env.buildDictionary kind src out).result faults = .error e := by
  have := gives_build (env := env) (src := src) (out := out) hf kind .start
  rw [hc] at this
  unfold W.result
  rw [this]
  cases kind <;> first | rfl | exact absurd rfl hk.1 | exact absurd rfl hk.2

/-- C59, exactly: without failing file operations, an error found in the sources is returned by three builders, and a panic of the two others. -/
theorem c59_errors_exact (env : BuildEnv) (kind : DictionaryKind) (src : SourceDir) (k : ErrKind)
    (hc : compile env kind src = .error (.err k)) (out : Path) (faults : Faults) (hf : NoFaults faults) :
    (env.buildDictionary kind src out).result faults = .error (if kind = .koDic ∨ kind = .ccCedict then .panic else .err k) := by
  have := gives_build (env := env) (src := src) (out := out) hf kind .start
  rw [hc] at this
  unfold W.result
  rw [this]
  cases kind <;> rfl

/-- C59 is false: with the Chinese (and in the same way the Korean) builder a source error is a panic. -/
theorem c59_errors_fails : ∃ (env : BuildEnv) (kind : DictionaryKind) (src : SourceDir) (k : ErrKind) (out : Path) (faults : Faults),
    PiecesOk env ∧ NoFaults faults ∧ compile env kind src = .error (.err k) ∧ (env.buildDictionary kind src out).result faults = .error .panic :=
  ⟨Dir.env, .ccCedict, Dir.broken, .parse, Dir.out, Dir.noFaults, Dir.pieces, fun _ => rfl, Dir.errorOf_eq (by decide +kernel),
    by decide +kernel⟩

example : Dir.compiled.dict.da.keys ≠ [] ∧ Dir.compiled.matrix ≠ [] ∧ Dir.compiled.chardef.names = ["DEFAULT".toList] := by decide +kernel
example : compile Dir.env .unidic Dir.broken = .error (.err .parse) := Dir.errorOf_eq (by decide +kernel)

/-! ### C60 A built directory loads back as what was compiled -/

/-- C60: a dictionary directory built without compression loads as exactly the compiled parts (the connection matrix as C20 describes). -/
theorem c60_load (env : BuildEnv) (hp : PiecesOk env) (hfe : env.feature = false) (kind : DictionaryKind) (src : SourceDir) (c : CompiledParts)
    (hc : compile env kind src = .ok c) (h1 : CharDefsTyped c.chardef) (h2 : UnkDictTyped c.unk) (h3 : env.format.view (env.format.store c.dict.da) = c.dict.da)
    (m : ConnMatrix) (hm : ConnMatrix.load c.matrix = .ok m) (out : Path) (faults : Faults) (hf : NoFaults faults) (fs : Fs)
    (load : LoadEnv) (hl : load.format = env.format) (hfs : load.files = runOps fs ((env.buildDictionary kind src out).trace faults)) :
    load.loadDictionary out = .ok (c.dictionary m) := by
  obtain ⟨-, h, -⟩ := c59_build env hp kind src c hc out faults hf fs
  have hr : ∀ e ∈ c.files env.format, load.readFile (out.join (utf8 e.1.toList)) = .ok e.2 := by
    intro e he
    have := h e he
    rw [hfe] at this
    unfold LoadEnv.readFile
    rw [hfs]
    unfold inDir at this
    rw [this]
    rfl
  simp only [CompiledParts.files, List.mem_cons, List.not_mem_nil, or_false, forall_eq_or_imp, forall_eq] at hr
  obtain ⟨r1, r2, r3, r4, r5, r6, r7⟩ := hr
  unfold LoadEnv.loadDictionary LoadEnv.prefixDict LoadEnv.connection LoadEnv.charDef LoadEnv.unknownDict LoadEnv.wordsIdxData LoadEnv.wordsData
  simp only [r1, r2, r3, r4, r5, r6, r7, bind_ok, pure_eq_ok, hm, c25_char_defs _ h1, c25_unk_dict _ h2, hl, h3]
  rfl

/-- C60: the files of a build, embedded into a dictionary crate with the same setting of the feature `compress`, load as exactly the compiled parts. -/
theorem c60_embedded (env : BuildEnv) (hp : PiecesOk env) (hfl : FlateContract env.flate) (kind : DictionaryKind) (src : SourceDir) (c : CompiledParts)
    (hc : compile env kind src = .ok c) (h1 : CharDefsTyped c.chardef) (h2 : UnkDictTyped c.unk) (h3 : env.format.view (env.format.store c.dict.da) = c.dict.da)
    (h4 : ∀ e ∈ c.files env.format, Usize (compress env.flate e.2 .deflate).data.length)
    (m : ConnMatrix) (hm : ConnMatrix.load c.matrix = .ok m) (out : Path) (faults : Faults) (hf : NoFaults faults) (fs : Fs) (d : DictData)
    (hd : let built := runOps fs ((env.buildDictionary kind src out).trace faults)
      built (inDir out "char_def.bin") = some d.charDef ∧ built (inDir out "unk.bin") = some d.unk ∧ built (inDir out "dict.da") = some d.da ∧
      built (inDir out "dict.vals") = some d.vals ∧ built (inDir out "dict.words") = some d.words ∧ built (inDir out "dict.wordsidx") = some d.wordsIdx ∧
      built (inDir out "matrix.mtx") = some d.matrix) :
    d.loadBuiltin env.feature env.flate env.format = .ok (c.dictionary m) := by
  obtain ⟨-, h, -⟩ := c59_build env hp kind src c hc out faults hf fs
  have hr : ∀ e ∈ c.files env.format, ∀ x, runOps fs ((env.buildDictionary kind src out).trace faults) (inDir out e.1) = some x →
      loadEmbedded env.feature env.flate x = .ok e.2 := by
    intro e he x hx
    rw [h e he] at hx
    rw [← Option.some.inj hx]
    exact c27_written_file env.feature env.flate hfl e.2 .deflate (h4 e he)
  simp only [CompiledParts.files, List.mem_cons, List.not_mem_nil, or_false, forall_eq_or_imp, forall_eq] at hr
  obtain ⟨r1, r2, r3, r4, r5, r6, r7⟩ := hr
  obtain ⟨e1, e2, e3, e4, e5, e6, e7⟩ := hd
  unfold DictData.loadBuiltin
  simp only [r1 _ e1, r2 _ e2, r3 _ e3, r4 _ e4, r5 _ e5, r6 _ e6, r7 _ e7, bind_ok, pure_eq_ok, hm, c25_char_defs _ h1, c25_unk_dict _ h2, h3]
  rfl

/-- C60: a directory whose files were compressed for embedding (feature `compress` of the builder) is refused when it is loaded by its path, never misread. -/
theorem c60_compressed (env : BuildEnv) (hp : PiecesOk env) (hfe : env.feature = true) (kind : DictionaryKind) (src : SourceDir) (c : CompiledParts)
    (hc : compile env kind src = .ok c) (hsize : (compress env.flate c.chardef.bytes .deflate).data.length < 2 ^ 32)
    (out : Path) (faults : Faults) (hf : NoFaults faults) (fs : Fs)
    (load : LoadEnv) (hfs : load.files = runOps fs ((env.buildDictionary kind src out).trace faults)) (d : Dictionary) :
    load.loadDictionary out ≠ .ok d := by
  obtain ⟨-, h, -⟩ := c59_build env hp kind src c hc out faults hf fs
  have h1 := h ("char_def.bin", c.chardef.bytes) (by simp [CompiledParts.files])
  rw [hfe] at h1
  have h2 : load.charDef out = .error (.err .deserialize) := by
    unfold LoadEnv.charDef LoadEnv.readFile
    rw [hfs]
    unfold inDir at h1
    rw [h1, bind_ok]
    exact compressed_not_charDefs _ hsize
  intro h
  unfold LoadEnv.loadDictionary at h
  simp only [bind_eq_ok] at h
  obtain ⟨_, _, _, _, _, h, _⟩ := h
  rw [h2] at h
  cases h

example : CharDefsTyped Dir.compiled.chardef ∧ UnkDictTyped Dir.compiled.unk ∧ Dir.env.format.view (Dir.env.format.store Dir.compiled.dict.da) = Dir.compiled.dict.da ∧
    (∀ e ∈ Dir.compiled.files Dir.env.format, Usize (compress Dir.env.flate e.2 .deflate).data.length) ∧ ∃ m, ConnMatrix.load Dir.compiled.matrix = .ok m := by
  refine ⟨?_, ?_, by decide +kernel, ?_, ?_⟩
  · constructor <;> unfold Usize <;> decide +kernel
  · constructor <;> unfold Usize <;> decide +kernel
  · unfold Usize; decide +kernel
  · have h : (ConnMatrix.load Dir.compiled.matrix).toOption.isSome = true := by decide +kernel
    cases hm : ConnMatrix.load Dir.compiled.matrix with
    | ok m => exact ⟨m, rfl⟩
    | error e => rw [hm] at h; simp [Except.toOption] at h
example : ((Dir.loader (runOps Dir.empty ((Dir.env.buildDictionary .unidic Dir.source Dir.out).trace Dir.noFaults))).loadDictionary Dir.out).toOption.isSome := by decide +kernel
example (fs : Fs) (load : LoadEnv) (hfs : load.files = runOps fs (({ Dir.env with feature := true }.buildDictionary .unidic Dir.source Dir.out).trace Dir.noFaults)) (d : Dictionary) :
    load.loadDictionary Dir.out ≠ .ok d :=
  c60_compressed { Dir.env with feature := true } Dir.pieces rfl .unidic Dir.source Dir.compiled Dir.compiles (by decide +kernel) Dir.out Dir.noFaults (fun _ => rfl) fs load hfs d

/-! ### C61 Failing writes are reported -/

/-- C61: whatever file operations fail, if building reports success then six of the seven files are complete, and `dict.da` is complete or cut short. That it may be cut
short is an error of the builder, see below. -/
theorem c61_reported_partial (env : BuildEnv) (hp : PiecesOk env) (kind : DictionaryKind) (src : SourceDir) (out : Path) (faults : Faults) (fs : Fs)
    (h : (env.buildDictionary kind src out).result faults = .ok ()) :
    ∃ c, compile env kind src = .ok c ∧ ∀ e ∈ c.files env.format, ∃ x,
      runOps fs ((env.buildDictionary kind src out).trace faults) (inDir out e.1) = some x ∧
      x <+: compressWrite env.feature env.flate e.2 .deflate ∧ (e.1 ≠ "dict.da" → x = compressWrite env.feature env.flate e.2 .deflate) := by
  obtain ⟨c, hc⟩ := c59_success env kind src out faults h
  refine ⟨c, hc, fun e he => ?_⟩
  have hh := (build_file (out := out) (fl := faults) hp hc fs e he).2
  rcases hh.1 ⟨(), h⟩ with hx | ⟨hn, -⟩
  · exact ⟨_, hx, List.prefix_refl _, fun _ => rfl⟩
  · obtain ⟨x, h1, h2⟩ := hh.2.2 ⟨(), h⟩
    exact ⟨x, h1, h2, fun hne => absurd hn hne⟩

/-- C61 is false: a failing write of a small double array is not noticed: building reports success, and `dict.da` is empty. -/
theorem c61_reported_fails : ∃ (env : BuildEnv) (kind : DictionaryKind) (src : SourceDir) (c : CompiledParts) (out : Path) (faults : Faults) (fs : Fs),
    PiecesOk env ∧ compile env kind src = .ok c ∧ (env.buildDictionary kind src out).result faults = .ok () ∧
    env.format.store c.dict.da ≠ [] ∧ runOps fs ((env.buildDictionary kind src out).trace faults) (inDir out "dict.da") = some [] :=
  ⟨Dir.env, .unidic, Dir.source, Dir.compiled, Dir.out, Dir.failAt 12, Dir.empty, Dir.pieces, Dir.compiles, by decide +kernel, by decide +kernel, by decide +kernel⟩

/-- C61, exactly: if building reports success then every call it made has succeeded, except possibly the last write to `dict.da`; if that one has succeeded too then all seven
files are complete. -/
theorem c61_reported_exact (env : BuildEnv) (hp : PiecesOk env) (kind : DictionaryKind) (src : SourceDir) (out : Path) (faults : Faults) (fs : Fs)
    (h : (env.buildDictionary kind src out).result faults = .ok ()) :
    let trace := (env.buildDictionary kind src out).trace faults
    (∀ n, n < trace.length → faults n ≠ none → LastWrite trace (inDir out "dict.da") n) ∧
    ((∀ n, n < trace.length → faults n = none) → ∃ c, compile env kind src = .ok c ∧ ∀ e ∈ c.files env.format,
      runOps fs trace (inDir out e.1) = some (compressWrite env.feature env.flate e.2 .deflate)) := by
  have ha := almost_build h
  refine ⟨fun n hn hf => ha.2 n (by rw [← ha.1]; exact hn) hf, fun hf => ?_⟩
  have hn : ∀ n, n < (env.buildDictionary kind src out faults .start).2.calls → faults n = none := by
    intro n hn
    rw [← ha.1] at hn
    exact hf n hn
  obtain ⟨c, hc⟩ := c59_success env kind src out faults h
  refine ⟨c, hc, ?_⟩
  have := (c59_build env hp kind src c hc out (fun _ => none) (fun _ => rfl) fs).2.1
  unfold W.trace at this ⊢
  rwa [build_noFaults hn] at this

/-- The unreported failure of `c61_reported_fails` is the last write to `dict.da`; a failure of any other call is an error. -/
example : LastWrite ((Dir.env.buildDictionary .unidic Dir.source Dir.out).trace (Dir.failAt 12)) (inDir Dir.out "dict.da") 12 :=
  (c61_reported_exact Dir.env Dir.pieces .unidic Dir.source Dir.out (Dir.failAt 12) Dir.empty (by decide +kernel)).1 12 (by decide +kernel) (by decide)
example : ∀ n : Fin 15, n.val ≠ 12 → Dir.errorOf ((Dir.env.buildDictionary .unidic Dir.source Dir.out).result (Dir.failAt n)) = some (.err .io) := by decide +kernel

/-! ### C62 Interrupted builds -/

/-- C62: wherever a build is interrupted, and whatever operations failed before, every one of the seven files is as it was before or a beginning of the new one, and no
other file is changed. -/
theorem c62_files (env : BuildEnv) (hp : PiecesOk env) (kind : DictionaryKind) (src : SourceDir) (c : CompiledParts) (hc : compile env kind src = .ok c)
    (out : Path) (faults : Faults) (fs fs' : Fs) (h : Crashed fs ((env.buildDictionary kind src out).trace faults) fs') :
    (∀ e ∈ c.files env.format, fs' (inDir out e.1) = fs (inDir out e.1) ∨
      ∃ x, fs' (inDir out e.1) = some x ∧ x <+: compressWrite env.feature env.flate e.2 .deflate) ∧
    ∀ q, (∀ e ∈ c.files env.format, inDir out e.1 ≠ q) → fs' q = fs q := by
  refine ⟨fun e he => (build_file (out := out) (fl := faults) hp hc fs e he).1 fs' h, fun q hq => ?_⟩
  refine (build_other (fl := faults) (env := env) (src := src) (kind := kind) (fun n hn => ?_) fs).1 fs' h
  simp only [CompiledParts.files, List.mem_cons, List.not_mem_nil, or_false, forall_eq_or_imp, forall_eq] at hq
  simp only [List.mem_cons, List.not_mem_nil, or_false] at hn
  rcases hn with rfl | rfl | rfl | rfl | rfl | rfl | rfl
  exacts [hq.1, hq.2.1, hq.2.2.1, hq.2.2.2.1, hq.2.2.2.2.1, hq.2.2.2.2.2.1, hq.2.2.2.2.2.2]

/-- C62: the connection matrix is written last: once it is touched, the other six files are complete. -/
theorem c62_order (env : BuildEnv) (hp : PiecesOk env) (kind : DictionaryKind) (src : SourceDir) (c : CompiledParts) (hc : compile env kind src = .ok c)
    (out : Path) (faults : Faults) (hf : NoFaults faults) (fs fs' : Fs) (h : Crashed fs ((env.buildDictionary kind src out).trace faults) fs')
    (ht : fs' (inDir out "matrix.mtx") ≠ fs (inDir out "matrix.mtx")) :
    ∀ e ∈ c.files env.format, e.1 ≠ "matrix.mtx" → fs' (inDir out e.1) = some (compressWrite env.feature env.flate e.2 .deflate) := by
  intro e he hne
  rcases build_order hp hc fs fs' h with h | h
  · exact absurd h ht
  · rcases h e he hne with h | ⟨-, h⟩
    · exact h
    · exact absurd hf h

/-- Without a connection matrix a directory does not load: an I/O error is returned. -/
private theorem load_without_matrix (load : LoadEnv) (out : Path) (h : load.files (inDir out "matrix.mtx") = none) :
    load.loadDictionary out = .error (.err .io) := by
  unfold LoadEnv.loadDictionary LoadEnv.prefixDict LoadEnv.connection
  have hm : load.readFile (out.join (utf8 "matrix.mtx".toList)) = .error (.err .io) := by
    unfold LoadEnv.readFile
    have h : load.files (out.join (utf8 "matrix.mtx".toList)) = none := h
    rw [h]
  have hr : ∀ p, load.readFile p = .error (.err .io) ∨ ∃ x, load.readFile p = .ok x := by
    intro p
    unfold LoadEnv.readFile
    cases load.files p with
    | none => exact .inl rfl
    | some x => exact .inr ⟨x, rfl⟩
  rcases hr (out.join (utf8 "dict.da".toList)) with h1 | ⟨x, h1⟩
  · simp only [h1, bind_error]
  · rcases hr (out.join (utf8 "dict.vals".toList)) with h2 | ⟨y, h2⟩
    · simp only [h1, h2, bind_ok, bind_error]
    · simp only [h1, h2, hm, bind_ok, pure_eq_ok, bind_error]

/-- C62: a directory without a connection matrix in which a build was interrupted is either not loaded (an I/O error), or all files but the connection matrix are
complete and the latter is a beginning of the compiled one. (If it is cut short, the directory may still load, see below.) -/
theorem c62_fresh_partial (env : BuildEnv) (hp : PiecesOk env) (kind : DictionaryKind) (src : SourceDir) (c : CompiledParts) (hc : compile env kind src = .ok c)
    (out : Path) (faults : Faults) (hf : NoFaults faults) (fs fs' : Fs) (hfresh : fs (inDir out "matrix.mtx") = none)
    (h : Crashed fs ((env.buildDictionary kind src out).trace faults) fs') (load : LoadEnv) (hl : load.files = fs') :
    load.loadDictionary out = .error (.err .io) ∨
    (∀ e ∈ c.files env.format, e.1 ≠ "matrix.mtx" → fs' (inDir out e.1) = some (compressWrite env.feature env.flate e.2 .deflate)) ∧
      ∃ x, fs' (inDir out "matrix.mtx") = some x ∧ x <+: compressWrite env.feature env.flate c.matrix .deflate := by
  by_cases ht : fs' (inDir out "matrix.mtx") = fs (inDir out "matrix.mtx")
  · exact .inl (load_without_matrix load out (by rw [hl, ht, hfresh]))
  · refine .inr ⟨c62_order env hp kind src c hc out faults hf fs fs' h ht, ?_⟩
    rcases (c62_files env hp kind src c hc out faults fs fs' h).1 ("matrix.mtx", c.matrix) (by simp [CompiledParts.files]) with h | h
    · exact absurd h ht
    · exact h

/-- C62, exactly, for files that are not compressed: a directory without a connection matrix in which a build was interrupted gives an I/O error as long as there is no matrix, a
panic while the matrix has less than four bytes, and afterwards it loads; then every text is tokenized as with the complete dictionary, or tokenizing it panics. A wrong
result is never given. -/
theorem c62_fresh_exact (env : BuildEnv) (hp : PiecesOk env) (hfe : env.feature = false) (kind : DictionaryKind) (src : SourceDir) (c : CompiledParts)
    (hc : compile env kind src = .ok c) (h1 : CharDefsTyped c.chardef) (h2 : UnkDictTyped c.unk) (h3 : env.format.view (env.format.store c.dict.da) = c.dict.da)
    (m : ConnMatrix) (hm : ConnMatrix.load c.matrix = .ok m) (out : Path) (faults : Faults) (hf : NoFaults faults) (fs fs' : Fs)
    (hfresh : fs (inDir out "matrix.mtx") = none) (h : Crashed fs ((env.buildDictionary kind src out).trace faults) fs')
    (load : LoadEnv) (hl : load.format = env.format) (hfs : load.files = fs') :
    (fs' (inDir out "matrix.mtx") = none ∧ load.loadDictionary out = .error (.err .io)) ∨
    ∃ x, fs' (inDir out "matrix.mtx") = some x ∧
      ((x.length < 4 ∧ load.loadDictionary out = .error .panic) ∨
       (4 ≤ x.length ∧ ∃ m', load.loadDictionary out = .ok (c.dictionary m') ∧ ∀ (user : Option UserDictionary) (mode : Mode) (text : Str),
          Tokenizer.tokenize ⟨c.dictionary m', user, mode⟩ text = Tokenizer.tokenize ⟨c.dictionary m, user, mode⟩ text ∨
          Tokenizer.tokenize ⟨c.dictionary m', user, mode⟩ text = .error .panic)) := by
  by_cases ht : fs' (inDir out "matrix.mtx") = fs (inDir out "matrix.mtx")
  · exact .inl ⟨by rw [ht, hfresh], load_without_matrix load out (by rw [hfs, ht, hfresh])⟩
  · right
    rcases (c62_files env hp kind src c hc out faults fs fs' h).1 ("matrix.mtx", c.matrix) (by simp [CompiledParts.files]) with hx | ⟨x, hx, hpre⟩
    · exact absurd hx ht
    · refine ⟨x, hx, ?_⟩
      rw [hfe] at hpre
      have hr : ∀ e ∈ c.files env.format, e.1 ≠ "matrix.mtx" → load.readFile (out.join (utf8 e.1.toList)) = .ok e.2 := by
        intro e he hne
        have := c62_order env hp kind src c hc out faults hf fs fs' h ht e he hne
        rw [hfe] at this
        unfold LoadEnv.readFile
        rw [hfs]
        unfold inDir at this
        rw [this]
        rfl
      have r7 : load.readFile (out.join (utf8 "matrix.mtx".toList)) = .ok x := by
        unfold LoadEnv.readFile
        rw [hfs]
        unfold inDir at hx
        rw [hx]
      have r1 := hr ("char_def.bin", c.chardef.bytes) (by simp [CompiledParts.files]) (by simp)
      have r2 := hr ("unk.bin", c.unk.bytes) (by simp [CompiledParts.files]) (by simp)
      have r3 := hr ("dict.da", env.format.store c.dict.da) (by simp [CompiledParts.files]) (by simp)
      have r4 := hr ("dict.vals", c.dict.vals) (by simp [CompiledParts.files]) (by simp)
      have r5 := hr ("dict.words", c.dict.words) (by simp [CompiledParts.files]) (by simp)
      have r6 := hr ("dict.wordsidx", c.dict.wordsIdx) (by simp [CompiledParts.files]) (by simp)
      rcases cut_load hpre hm with ⟨hlen, hm'⟩ | ⟨hlen, m', hm', hcut⟩
      · refine .inl ⟨hlen, ?_⟩
        unfold LoadEnv.loadDictionary LoadEnv.prefixDict LoadEnv.connection
        simp only [r3, r4, r7, bind_ok, pure_eq_ok, hm', bind_error]
      · refine .inr ⟨hlen, m', ?_, fun user mode text => hcut.tokenize (c.dictionary m) user mode text⟩
        unfold LoadEnv.loadDictionary LoadEnv.prefixDict LoadEnv.connection LoadEnv.charDef LoadEnv.unknownDict LoadEnv.wordsIdxData LoadEnv.wordsData
        simp only [r1, r2, r3, r4, r5, r6, r7, bind_ok, pure_eq_ok, hm', c25_char_defs _ h1, c25_unk_dict _ h2, hl, h3]
        rfl

/-- C62, for compressed files: such a directory never loads by its path. -/
theorem c62_fresh_compressed (env : BuildEnv) (hp : PiecesOk env) (hfe : env.feature = true) (kind : DictionaryKind) (src : SourceDir) (c : CompiledParts)
    (hc : compile env kind src = .ok c) (hsize : (compress env.flate c.chardef.bytes .deflate).data.length < 2 ^ 32)
    (out : Path) (faults : Faults) (hf : NoFaults faults) (fs fs' : Fs)
    (hfresh : fs (inDir out "matrix.mtx") = none) (h : Crashed fs ((env.buildDictionary kind src out).trace faults) fs')
    (load : LoadEnv) (hfs : load.files = fs') (d : Dictionary) : load.loadDictionary out ≠ .ok d := by
  by_cases ht : fs' (inDir out "matrix.mtx") = fs (inDir out "matrix.mtx")
  · rw [load_without_matrix load out (by rw [hfs, ht, hfresh])]
    simp
  · have h1 := c62_order env hp kind src c hc out faults hf fs fs' h ht ("char_def.bin", c.chardef.bytes) (by simp [CompiledParts.files]) (by simp)
    rw [hfe] at h1
    have h2 : load.charDef out = .error (.err .deserialize) := by
      unfold LoadEnv.charDef LoadEnv.readFile
      rw [hfs]
      unfold inDir at h1
      rw [h1, bind_ok]
      exact compressed_not_charDefs _ hsize
    intro h
    unfold LoadEnv.loadDictionary at h
    simp only [bind_eq_ok] at h
    obtain ⟨_, _, _, _, _, h, _⟩ := h
    rw [h2] at h
    cases h

/-- C62: sources that do not compile never make a directory without connection matrix loadable, whatever fails and wherever the build is interrupted. -/
theorem c62_failed (env : BuildEnv) (kind : DictionaryKind) (src : SourceDir) (e : Fail) (hc : compile env kind src = .error e)
    (out : Path) (faults : Faults) (fs fs' : Fs) (hfresh : fs (inDir out "matrix.mtx") = none)
    (h : Crashed fs ((env.buildDictionary kind src out).trace faults) fs') (load : LoadEnv) (hl : load.files = fs') :
    load.loadDictionary out = .error (.err .io) :=
  load_without_matrix load out (by rw [hl, (build_failed hc fs).1 fs' h, hfresh])

namespace Dir
/-- The calls of a build without failures, in order. -/
def calls (words idx vals da mtx : List UInt8) : List FsOp :=
  let f := inDir out
  [.mkdir out, .create (f "char_def.bin"),
   .append (f "char_def.bin") [1, 0, 0, 0, 0, 0, 0, 0, 0, 1, 0, 0, 0, 0, 1, 0, 0, 0, 0, 0, 0, 0, 7, 0, 0, 0, 0, 0, 0, 0, 68, 69, 70, 65, 85, 76,
    84, 1, 0, 0, 0, 0, 0, 0, 0, 0, 0, 0, 0, 1, 0, 0, 0, 0, 0, 0, 0, 1, 0, 0, 0, 0, 0, 0, 0, 0, 0, 0, 0, 0, 0, 0, 0],
   .create (f "unk.bin"),
   .append (f "unk.bin") [1, 0, 0, 0, 0, 0, 0, 0, 1, 0, 0, 0, 0, 0, 0, 0, 0, 0, 0, 0, 1, 0, 0, 0, 0, 0, 0, 0, 255, 255, 255, 255, 1, 100, 0, 0, 0, 0, 0],
   .create (f "dict.da"), .create (f "dict.vals"), .create (f "dict.words"), .create (f "dict.wordsidx"),
   .append (f "dict.words") words, .append (f "dict.wordsidx") idx, .append (f "dict.vals") vals, .append (f "dict.da") da,
   .create (f "matrix.mtx"), .append (f "matrix.mtx") mtx]

/-- The calls that write `source`. -/
def sourceCalls : List FsOp :=
  calls [3, 0, 0, 0, 121, 0, 122, 1, 0, 0, 0, 120] [0, 0, 0, 0, 7, 0, 0, 0] [0, 0, 0, 0, 253, 255, 0, 0, 0, 0, 1, 0, 0, 0, 3, 0, 0, 0, 0, 0]
    [2, 0, 0, 0, 0, 0, 0, 0, 1, 0, 0, 0, 0, 0, 0, 0, 97, 1, 0, 0, 0, 1, 0, 0, 0, 0, 0, 0, 0, 98, 33, 0, 0, 0] [1, 0, 1, 0, 5, 0]
/-- The calls that write `newer`. -/
def newerCalls : List FsOp :=
  calls [1, 0, 0, 0, 120] [0, 0, 0, 0] [0, 0, 0, 0, 4, 0, 0, 0, 0, 0] [1, 0, 0, 0, 0, 0, 0, 0, 1, 0, 0, 0, 0, 0, 0, 0, 99, 1, 0, 0, 0] [1, 0, 1, 0, 9, 0]

theorem source_trace : (env.buildDictionary .unidic source out).trace noFaults = sourceCalls := by decide +kernel
theorem newer_trace : (env.buildDictionary .unidic newer out).trace noFaults = newerCalls := by decide +kernel
theorem noFaults_ok : NoFaults noFaults := fun _ => rfl

/-- A crash inside the last call. -/
theorem crashed_last (fs : Fs) (k : Nat) : Crashed fs sourceCalls (runOps fs (sourceCalls.take 14 ++ [.append (inDir out "matrix.mtx") (List.take k [1, 0, 1, 0, 5, 0])])) :=
  Crashed.within (sourceCalls.take 14) [] (inDir out "matrix.mtx") [1, 0, 1, 0, 5, 0] k

/-- A crash before the connection matrix is touched. -/
theorem crashed_before (fs : Fs) : Crashed fs newerCalls (runOps fs (newerCalls.take 13)) := by
  have h := Crashed.between (fs := fs) (newerCalls.take 13) (newerCalls.drop 13)
  rwa [List.take_append_drop] at h

/-- The words and the cost of the connection of the ids 0 and 0 (`none`: a panic) in the directory, if it loads. -/
def seen (fs : Fs) : Option (List (List UInt8) × Option Int32) :=
  match (loader fs).loadDictionary out with
  | .ok d => some (d.dict.da.keys.map (·.1), (d.costMatrix.cost 0 0).toOption)
  | .error _ => none
end Dir

/-- C62 is false: an interrupted build can leave a directory that loads without an error although its connection matrix is cut short, so that using it panics. -/
theorem c62_truncated_fails : ∃ (env : BuildEnv) (kind : DictionaryKind) (src : SourceDir) (faults : Faults) (fs fs' : Fs),
    PiecesOk env ∧ NoFaults faults ∧ (env.buildDictionary kind src Dir.out).result faults = .ok () ∧ (∀ q, fs q = none) ∧
    Crashed fs ((env.buildDictionary kind src Dir.out).trace faults) fs' ∧
    Dir.seen (runOps fs ((env.buildDictionary kind src Dir.out).trace faults)) = some ([utf8 ['a'], utf8 ['b']], some 5) ∧
    Dir.seen fs' = some ([utf8 ['a'], utf8 ['b']], none) := by
  refine ⟨Dir.env, .unidic, Dir.source, Dir.noFaults, Dir.empty,
    runOps Dir.empty (Dir.sourceCalls.take 14 ++ [.append (inDir Dir.out "matrix.mtx") (List.take 4 [1, 0, 1, 0, 5, 0])]), Dir.pieces, Dir.noFaults_ok,
    by decide +kernel, fun _ => rfl, ?_, ?_, by decide +kernel⟩
  · rw [Dir.source_trace]; exact Dir.crashed_last Dir.empty 4
  · rw [Dir.source_trace]; decide +kernel

/-- A directory of the third kind of `c62_fresh_exact`, with a text that is tokenized and one that panics. -/
example : ∃ fs' : Fs, Crashed Dir.empty ((Dir.env.buildDictionary .unidic Dir.source Dir.out).trace Dir.noFaults) fs' ∧
    ∃ m', (Dir.loader fs').loadDictionary Dir.out = .ok (Dir.compiled.dictionary m') ∧
      Tokenizer.tokenize ⟨Dir.compiled.dictionary m', none, .normal⟩ [] = .ok [] ∧
      Tokenizer.tokenize ⟨Dir.compiled.dictionary m', none, .normal⟩ ['a'] = .error .panic := by
  refine ⟨runOps Dir.empty (Dir.sourceCalls.take 14 ++ [.append (inDir Dir.out "matrix.mtx") (List.take 4 [1, 0, 1, 0, 5, 0])]), ?_, ⟨[], 1⟩, ?_, ?_, ?_⟩
  · rw [Dir.source_trace]; exact Dir.crashed_last Dir.empty 4
  · decide +kernel
  · decide +kernel
  · decide +kernel

/-- C62 is false: an interrupted rebuild can leave a directory that loads without an error with the new words and the old connection costs. -/
theorem c62_mixed_fails : ∃ (env : BuildEnv) (kind : DictionaryKind) (old new : SourceDir) (faults : Faults) (fs fs' : Fs),
    PiecesOk env ∧ NoFaults faults ∧ fs = runOps Dir.empty ((env.buildDictionary kind old Dir.out).trace faults) ∧
    Crashed fs ((env.buildDictionary kind new Dir.out).trace faults) fs' ∧ Dir.seen fs = some ([utf8 ['a'], utf8 ['b']], some 5) ∧
    Dir.seen (runOps fs ((env.buildDictionary kind new Dir.out).trace faults)) = some ([utf8 ['c']], some 9) ∧ Dir.seen fs' = some ([utf8 ['c']], some 5) := by
  refine ⟨Dir.env, .unidic, Dir.source, Dir.newer, Dir.noFaults, runOps Dir.empty Dir.sourceCalls, runOps (runOps Dir.empty Dir.sourceCalls) (Dir.newerCalls.take 13),
    Dir.pieces, Dir.noFaults_ok, ?_, ?_, by decide +kernel, ?_, by decide +kernel⟩
  · exact congrArg _ Dir.source_trace.symm
  · exact Dir.newer_trace.symm ▸ Dir.crashed_before (runOps Dir.empty Dir.sourceCalls)
  · rw [Dir.newer_trace]; decide +kernel

/-! ### C63 Compiled user dictionaries on disk -/

/-- C63: without failing file operations writing a user dictionary succeeds. -/
theorem c63_succeeds (env : BuildEnv) (u : UserDictionary) (p : Path) (faults : Faults) (hf : NoFaults faults) :
    (env.buildUserDictionary u p).result faults = .ok () := user_gives hf u p .start

/-- C63: whatever file operations fail, if writing a user dictionary reports success, then the file is complete and loads back as exactly the dictionary,
and no other file has changed. -/
theorem c63_reported (env : BuildEnv) (hp : PiecesOk env) (u : UserDictionary) (p : Path) (faults : Faults) (fs : Fs)
    (h : (env.buildUserDictionary u p).result faults = .ok ()) (hu : UserDictTyped env.format u) (hv : env.format.view (env.format.store u.dict.da) = u.dict.da)
    (load : LoadEnv) (hl : load.format = env.format) (hfs : load.files = runOps fs ((env.buildUserDictionary u p).trace faults)) :
    load.loadUserFromBin p = .ok u ∧ ∀ q, p ≠ q → load.files q = fs q := by
  constructor
  · have hx := (tri_start (Q := fun r c _ => Final _ _ r c) (user_file (fl := faults) (old := fs p) hp u p)).2
    rw [h] at hx
    rcases hx with ⟨-, hx⟩ | ⟨⟨e, he⟩, -⟩
    · have hr : load.readFile p = .ok (u.bytes env.format) := by
        unfold LoadEnv.readFile
        rw [hfs, hx]
      unfold LoadEnv.loadUserFromBin
      rw [hr, bind_ok, hl]
      exact c25_user_dict env.format u hv hu
    · simp at he
  · intro q hq
    rw [hfs]
    exact (keeps_start (user_keeps u hq) fs).2

/-- C63: wherever writing a user dictionary over an older file is interrupted, the file is the old one, or the new one, or is rejected when it is loaded. -/
theorem c63_interrupted (env : BuildEnv) (hp : PiecesOk env) (u : UserDictionary) (p : Path) (faults : Faults) (fs fs' : Fs)
    (h : Crashed fs ((env.buildUserDictionary u p).trace faults) fs') (hu : UserDictTyped env.format u)
    (load : LoadEnv) (hl : load.format = env.format) (hfs : load.files = fs') :
    (fs' p = fs p ∨ fs' p = some (u.bytes env.format) ∨ load.loadUserFromBin p = .error (.err .deserialize)) ∧ ∀ q, p ≠ q → fs' q = fs q := by
  refine ⟨?_, fun q hq => (keeps_start (user_keeps u hq) fs).1 fs' h⟩
  rcases (tri_start (Q := fun r c _ => Final _ _ r c) (user_file (old := fs p) hp u p)).1 fs' h with h | ⟨x, h1, rest, h2⟩
  · exact .inl h
  · refine .inr ?_
    by_cases he : rest = []
    · subst he; rw [List.append_nil] at h2; exact .inl (by rw [h1, h2])
    · refine .inr ?_
      have hr : load.readFile p = .ok x := by
        unfold LoadEnv.readFile
        rw [hfs, h1]
      unfold LoadEnv.loadUserFromBin
      rw [hr, bind_ok, hl]
      exact c26_user_dict env.format u hu x ⟨rest, h2.symm, by assumption⟩

example : UserDictTyped Dir.env.format Stored.userDict ∧ Dir.env.format.view (Dir.env.format.store Stored.userDict.dict.da) = Stored.userDict.dict.da ∧
    Stored.userDict.dict.da.keys ≠ [] ∧ ((Dir.env.buildUserDictionary Stored.userDict Dir.out).trace Dir.noFaults).length = 3 ∧
    (Dir.env.buildUserDictionary Stored.userDict Dir.out).result (Dir.failAt 2) = .error (.err .io) :=
  ⟨Stored.userDictTyped, by decide +kernel, by decide +kernel, by decide +kernel, by decide +kernel⟩

end Verif.Props
