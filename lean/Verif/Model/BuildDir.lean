import Verif.Model.Loader
import Verif.Model.UnkBuilder
import Verif.Model.CharDefBuilder
import Verif.Model.MatrixBuilder
import Verif.Model.UserDictBuilder
/-!
Model of the dictionary compilers as programs that write files: `lindera-dictionary-builder/src/{chardef,unk,dict,cost_matrix,user_dict,utils}.rs` and
`build_dictionary` in the five builder crates. The file system is a function from paths to contents. The program performs operating system calls one after the other;
each may fail, and the process may be killed between or inside any two. `std::io::BufWriter` is modelled with its buffer, its explicit
`flush` and the flush when it is dropped.
-/
namespace Verif.Model

/-! ### The file system -/

/-- The contents of the files; `none`: no such file. -/
abbrev Fs := Path → Option (List UInt8)

/-- The calls that change the file system: `create_dir_all`, `File::create` (which empties an existing file) and a write at the end of a file. -/
inductive FsOp where
  | mkdir (p : Path)
  | create (p : Path)
  | append (p : Path) (bytes : List UInt8)
  deriving DecidableEq, Repr

/-- The effect of a call. Directories are not represented. -/
def FsOp.apply (fs : Fs) : FsOp → Fs
  | .mkdir _ => fs
  | .create p => fun q => if q = p then some [] else fs q
  | .append p bytes => fun q => if q = p then (fs q).map (· ++ bytes) else fs q

/-- The effect of a sequence of calls. -/
def runOps (fs : Fs) (ops : List FsOp) : Fs := ops.foldl FsOp.apply fs

/-- Which calls fail: `faults n = some k` means that the `n`-th call fails, after `k` bytes if it is a write. -/
abbrev Faults := Nat → Option Nat

/-- The state of the writing program: the calls that have taken effect (a failed write counts with the bytes it wrote), the number of calls made,
and the buffered bytes of each open `BufWriter`. -/
structure WState where
  ops : List FsOp
  calls : Nat
  buf : Path → List UInt8

/-- Replacing the buffer of one writer. -/
def setBuf (buf : Path → List UInt8) (p : Path) (b : List UInt8) : Path → List UInt8 := fun q => if q = p then b else buf q

/-- A program that writes files. A panic or error stops it (see `withWriter` for what happens then). -/
def W (α : Type) := Faults → WState → R α × WState

instance : Monad W where
  pure a := fun _ s => (.ok a, s)
  bind m k := fun fl s =>
    match m fl s with
    | (.ok a, s') => k a fl s'
    | (.error e, s') => (.error e, s')

/-- A computation without effects. -/
def liftR {α : Type} (r : R α) : W α := fun _ s => (r, s)

/-- `.map_err(..)` and `.unwrap()` on the result of a step. -/
def W.mapResult {α : Type} (f : R α → R α) (m : W α) : W α := fun fl s => (f (m fl s).1, (m fl s).2)

/-- `fs::create_dir_all` and `File::create`. -/
def osCall (op : FsOp) : W Unit := fun fl s =>
  match fl s.calls with
  | none => (.ok (), { s with ops := s.ops ++ [op], calls := s.calls + 1 })
  | some _ => (.error (.err .io), { s with calls := s.calls + 1 })

/-- `<File as Write>::write_all`; the buffer of the writer afterwards is given for success and failure. A failure after `k` bytes has written these. -/
def osWrite (p : Path) (bytes okBuf : List UInt8) (errBuf : Nat → List UInt8) : W Unit := fun fl s =>
  match fl s.calls with
  | none => (.ok (), ⟨s.ops ++ [.append p bytes], s.calls + 1, setBuf s.buf p okBuf⟩)
  | some k => (.error (.err .io), ⟨s.ops ++ [.append p (bytes.take k)], s.calls + 1, setBuf s.buf p (errBuf k)⟩)

/-- The capacity of a `BufWriter` made by `BufWriter::new` (Rust std). -/
def bufCapacity : Nat := 8192

/-- `BufWriter::flush_buf` (Rust std): writes the buffered bytes; after a failure those not yet written stay in the buffer. -/
def flushBuf (p : Path) : W Unit := fun fl s =>
  if s.buf p = [] then (.ok (), s) else osWrite p (s.buf p) [] (fun k => (s.buf p).drop k) fl s

/-- The second half of `write_all_cold`, `BufWriter` (Rust std): large data bypasses the buffer. -/
def writeCold (p : Path) (data : List UInt8) : W Unit := fun fl s =>
  if bufCapacity ≤ data.length then osWrite p data (s.buf p) (fun _ => s.buf p) fl s
  else (.ok (), { s with buf := setBuf s.buf p (s.buf p ++ data) })

/-- `<BufWriter as Write>::write_all` (Rust std). -/
def writeAll (p : Path) (data : List UInt8) : W Unit := fun fl s =>
  if data.length < bufCapacity - (s.buf p).length then (.ok (), { s with buf := setBuf s.buf p (s.buf p ++ data) })
  else if bufCapacity - (s.buf p).length < data.length then (do flushBuf p; writeCold p data) fl s
  else writeCold p data fl s

/-- Dropping a `BufWriter` (Rust std): what is buffered is written and the result is ignored. -/
def dropWriter (p : Path) (fl : Faults) (s : WState) : WState := (flushBuf p fl s).2

/-- `BufWriter::new(File::create(path)?)`, used in `body` and dropped at the end of the scope, also when `body` ends with an error or a panic. -/
def withWriter {α : Type} (p : Path) (body : W α) : W α := fun fl s =>
  match osCall (.create p) fl s with
  | (.error e, s) => (.error e, s)
  | (.ok _, s) =>
    let r := body fl { s with buf := setBuf s.buf p [] }
    (r.1, dropWriter p fl r.2)

/-! ### The compilers -/

/-- The text encodings in use. -/
inductive Encoding where
  | utf8
  | eucJp
  deriving DecidableEq, Repr

/-- What the compilers depend on: the feature `compress`, the crates `flate2`, `yada`, `encoding_rs` (`decode` is lossy and total) and `csv` (`none`: malformed; the first flag is the
option `flexible`), the pieces in which serialized data is handed to the writer (one piece without compression, many from `bincode`), and the iteration order of
a hash map. -/
structure BuildEnv where
  feature : Bool
  flate : Flate
  format : DaFormat
  yada : DaBuilder
  decode : Encoding → List UInt8 → Str
  csv : Bool → Encoding → List UInt8 → Option (List Row)
  pieces : List UInt8 → List (List UInt8)
  hashOrder : List (Str × Nat) → List (Str × Nat)

/-- The source directory: the three definition files and the files that match `*.csv` in the order in which `glob` lists them; `none`: cannot be read. Failures of `glob`
are not modelled. -/
structure SourceDir where
  charDef : Option (List UInt8)
  unk : Option (List UInt8)
  matrix : Option (List UInt8)
  csvs : List (Option (List UInt8))

/-- The options a builder crate passes: `lindera-ipadic-builder/src/ipadic_builder.rs` lines 18-19, 53-99, `lindera-ipadic-neologd-builder/src/ipadic_neologd_builder.rs`
lines 18, 52-94, `lindera-unidic-builder/src/unidic_builder.rs` lines 19, 53-94, `lindera-ko-dic-builder/src/ko_dic_builder.rs` lines 18, 52-94,
`lindera-cc-cedict-builder/src/cc_cedict_builder.rs` lines 18, 52-94. -/
structure BuildCfg where
  encoding : Encoding
  flexible : Bool
  dict : DictCfg
  unkFields : Nat
  /-- The steps of `build_dictionary` are unwrapped (`ko_dic_builder.rs` lines 39-42, `cc_cedict_builder.rs` lines 39-42), not returned. -/
  unwraps : Bool
  deriving DecidableEq, Repr

def BuildCfg.ofKind : DictionaryKind → BuildCfg
  | .ipadic => ⟨.eucJp, false, ⟨true, false⟩, 11, false⟩
  | .ipadicNeologd => ⟨.utf8, false, ⟨true, false⟩, 11, false⟩
  | .unidic => ⟨.utf8, false, ⟨false, false⟩, 10, false⟩
  | .koDic => ⟨.utf8, false, ⟨false, false⟩, 12, true⟩
  | .ccCedict => ⟨.utf8, true, ⟨false, true⟩, 10, true⟩

/-- `read_file_with_encoding`, `utils.rs` lines 40-48. The encoding names used are known. -/
def BuildEnv.readText (env : BuildEnv) (enc : Encoding) : Option (List UInt8) → R Str
  | some bytes => .ok (env.decode enc bytes)
  | none => .error (.err .io)

/-- `compress_write`, `utils.rs` lines 14-38. -/
def BuildEnv.writeData (env : BuildEnv) (p : Path) (data : List UInt8) : W Unit :=
  (env.pieces (compressWrite env.feature env.flate data .deflate)).forM (writeAll p)

/-- `CharDefBuilder::build` before writing, `chardef.rs` lines 33-43. -/
def BuildEnv.compileChardef (env : BuildEnv) (cfg : BuildCfg) (src : SourceDir) : R CharDefs := do
  let text ← env.readText cfg.encoding src.charDef
  let b ← CharDefBuilder.empty.parse text
  b.build (env.hashOrder b.index)

/-- `CharDefBuilder::build`, `chardef.rs` lines 28-57. -/
def BuildEnv.buildChardef (env : BuildEnv) (cfg : BuildCfg) (src : SourceDir) (out : Path) : W CharDefs := do
  let d ← liftR (env.compileChardef cfg src)
  let p := out.join (utf8 "char_def.bin".toList)
  withWriter p (do env.writeData p d.bytes; flushBuf p)
  return d

/-- `UnkBuilder::build` before writing, `unk.rs` lines 37-40. -/
def BuildEnv.compileUnk (env : BuildEnv) (cfg : BuildCfg) (src : SourceDir) (chardef : CharDefs) : R UnkDict := do
  let text ← env.readText cfg.encoding src.unk
  parseUnk chardef.names text cfg.unkFields

/-- `UnkBuilder::build`, `unk.rs` lines 31-57. -/
def BuildEnv.buildUnk (env : BuildEnv) (cfg : BuildCfg) (src : SourceDir) (chardef : CharDefs) (out : Path) : W Unit := do
  let u ← liftR (env.compileUnk cfg src chardef)
  let p := out.join (utf8 "unk.bin".toList)
  withWriter p (do env.writeData p u.bytes; flushBuf p)

/-- Reading the records, `dict.rs` lines 69-100. -/
def BuildEnv.readRows (env : BuildEnv) (cfg : BuildCfg) : List (Option (List UInt8)) → R (List Row)
  | [] => .ok []
  | none :: _ => .error (.err .io)
  | some bytes :: files =>
    match env.csv cfg.flexible cfg.encoding bytes with
    | none => .error (.err .content)
    | some rows => do
      let rest ← env.readRows cfg files
      return rows ++ rest

/-- `DoubleArrayBuilder::build(&keyset).ok_or_else(..)`, `dict.rs` lines 235-237. -/
def BuildEnv.doubleArray (env : BuildEnv) (m : EntryMap) : R DoubleArray :=
  match env.yada (keyset 0 m) with
  | some da => .ok da
  | none => .error (.err .io)

/-- `DictBuilder::build`, `dict.rs` lines 44-257: the four files are opened one after the other and `dict.da` is not flushed explicitly. -/
def BuildEnv.buildDict (env : BuildEnv) (cfg : BuildCfg) (src : SourceDir) (out : Path) : W Unit := do
  let rows ← liftR (env.readRows cfg src.csvs)
  let rows := sortByKey cfg.dict.rowKey rows
  let da := out.join (utf8 "dict.da".toList)
  let vals := out.join (utf8 "dict.vals".toList)
  let words := out.join (utf8 "dict.words".toList)
  let idx := out.join (utf8 "dict.wordsidx".toList)
  withWriter da <| withWriter vals do
    let m ← liftR (cfg.dict.entryMap rows)
    withWriter words <| withWriter idx do
      let bufs ← liftR (rows.foldlM (init := ([], [])) cfg.dict.pushDetails)
      env.writeData words bufs.1
      env.writeData idx bufs.2
      flushBuf words
      flushBuf idx
      let a ← liftR (env.doubleArray m)
      env.writeData da (env.format.store a)
      env.writeData vals (valsBuffer m)
      flushBuf vals

/-- `CostMatrixBuilder::build` before writing, `cost_matrix.rs` lines 29-58. -/
def BuildEnv.compileMatrix (env : BuildEnv) (cfg : BuildCfg) (src : SourceDir) : R (List UInt8) := do
  let text ← env.readText cfg.encoding src.matrix
  buildMatrix text

/-- `CostMatrixBuilder::build`, `cost_matrix.rs` lines 28-82. -/
def BuildEnv.buildCostMatrix (env : BuildEnv) (cfg : BuildCfg) (src : SourceDir) (out : Path) : W Unit := do
  let bytes ← liftR (env.compileMatrix cfg src)
  let p := out.join (utf8 "matrix.mtx".toList)
  withWriter p (do env.writeData p bytes; flushBuf p)

/-- `.unwrap()` on the result of a step. -/
def unwrapErr {α : Type} : R α → R α
  | .error (.err _) => .error .panic
  | r => r

/-- `step?` or `step.unwrap()`. -/
def BuildCfg.step {α : Type} (cfg : BuildCfg) (m : W α) : W α := if cfg.unwraps then m.mapResult unwrapErr else m

/-- `build_dictionary`, `ipadic_builder.rs` lines 36-46, `ipadic_neologd_builder.rs` lines 35-45, `unidic_builder.rs` lines 36-46, `ko_dic_builder.rs` lines 35-45,
`cc_cedict_builder.rs` lines 35-45. -/
def BuildEnv.buildDictionary (env : BuildEnv) (kind : DictionaryKind) (src : SourceDir) (out : Path) : W Unit := do
  let cfg := BuildCfg.ofKind kind
  osCall (.mkdir out)
  let chardef ← cfg.step (env.buildChardef cfg src out)
  cfg.step (env.buildUnk cfg src chardef out)
  cfg.step (env.buildDict cfg src out)
  cfg.step (env.buildCostMatrix cfg src out)

/-- A failing `bincode::serialize_into` has the error kind `Serialize`. -/
def serializeErr {α : Type} : R α → R α := mapErr .serialize

/-- `build_user_dictionary`, `user_dict.rs` lines 164-186, for a path with a parent directory (whose creation is the first call). -/
def BuildEnv.buildUserDictionary (env : BuildEnv) (u : UserDictionary) (p : Path) : W Unit := do
  osCall (.mkdir p)
  withWriter p (do
    W.mapResult serializeErr ((env.pieces (u.bytes env.format)).forM (writeAll p))
    flushBuf p)

/-! ### Runs -/

/-- A freshly started program. -/
def WState.start : WState := ⟨[], 0, fun _ => []⟩

/-- The result of running a program to its end. -/
def W.result {α : Type} (m : W α) (faults : Faults) : R α := (m faults .start).1

/-- The calls that took effect in a run to its end. -/
def W.trace {α : Type} (m : W α) (faults : Faults) : List FsOp := (m faults .start).2.ops

end Verif.Model
