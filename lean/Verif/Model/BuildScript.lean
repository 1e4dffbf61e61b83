import Verif.Model.BuildDir
/-!
Model of the build scripts of the dictionary crates, `lindera-ipadic/build.rs`, `lindera-ipadic-neologd/build.rs`, `lindera-unidic/build.rs`, `lindera-ko-dic/build.rs` and
`lindera-cc-cedict/build.rs`, with the crate's feature (without it `main` does nothing). They are the same program with other names. As in `Verif.Model.BuildDir` every operating
system call may fail, and the process may be killed between or inside any two. The network (crate `ureq`), `tar.gz` archives (crates `flate2` and `tar`), text encoding (crate
`encoding`) and the listing of `*.csv` files (crate `glob`) are parameters.
-/
namespace Verif.Model

/-! ### The disk -/

/-- Files and directories. That a file can only be created in an existing directory is not modelled. -/
structure Disk where
  files : Fs
  dirs : Path → Bool

/-- The calls that change the disk: those of the dictionary compilers, `fs::create_dir`, `fs::rename` and `fs::remove_file`. -/
inductive DiskOp where
  | file (op : FsOp)
  | mkdir (p : Path)
  | rename (source dest : Path)
  | remove (p : Path)
  deriving DecidableEq, Repr

/-- The directories after a call of the compilers: `create_dir_all` makes one. -/
def FsOp.dirs (dirs : Path → Bool) : FsOp → Path → Bool
  | .mkdir p => fun q => q == p || dirs q
  | _ => dirs

/-- The effect of a call. A renamed file replaces the file with the new name. -/
def DiskOp.apply (d : Disk) : DiskOp → Disk
  | .file op => ⟨op.apply d.files, op.dirs d.dirs⟩
  | .mkdir p => ⟨d.files, fun q => q == p || d.dirs q⟩
  | .rename a b => ⟨fun q => if q = b then d.files a else if q = a then none else d.files q, d.dirs⟩
  | .remove p => ⟨fun q => if q = p then none else d.files q, d.dirs⟩

/-- The effect of a sequence of calls. -/
def runDisk (d : Disk) (ops : List DiskOp) : Disk := ops.foldl DiskOp.apply d

/-- The part of a failing call that takes effect: a write may have written some bytes. -/
def DiskOp.failed (k : Nat) : DiskOp → List DiskOp
  | .file (.append p bytes) => [.file (.append p (bytes.take k))]
  | _ => []

/-- The state of a script: the disk, the calls that have taken effect, and the number of calls made. -/
structure SState where
  disk : Disk
  log : List DiskOp
  calls : Nat

/-- A script. -/
def S (α : Type) := Faults → SState → R α × SState

instance : Monad S where
  pure a := fun _ s => (.ok a, s)
  bind m k := fun fl s =>
    match m fl s with
    | (.ok a, s') => k a fl s'
    | (.error e, s') => (.error e, s')

namespace S

/-- Ending with an error or panic. -/
def fail {α : Type} (e : Fail) : S α := fun _ s => (.error e, s)

/-- Calls take effect. -/
def _root_.Verif.Model.SState.did (s : SState) (ops : List DiskOp) (calls : Nat) : SState := ⟨runDisk s.disk ops, s.log ++ ops, s.calls + calls⟩

/-- A call that changes the disk. -/
def call (op : DiskOp) : S Unit := fun fl s =>
  match fl s.calls with
  | none => (.ok (), s.did [op] 1)
  | some k => (.error (.err .io), s.did (op.failed k) 1)

/-- `Path::exists`, which does not fail. -/
def fileExists (p : Path) : S Bool := fun _ s => (.ok (s.disk.files p).isSome, s)

/-- `fs::create_dir`: an error if the directory exists. -/
def createDir (p : Path) : S Unit := fun fl s =>
  if s.disk.dirs p then (.error (.err .io), s) else call (.mkdir p) fl s

/-- `File::open` and `read_to_end`. -/
def readFile (p : Path) : S (List UInt8) := fun fl s =>
  match fl s.calls, s.disk.files p with
  | none, some bytes => (.ok bytes, s.did [] 1)
  | _, _ => (.error (.err .io), s.did [] 1)

/-- A program of the compilers as a part of a script. -/
def ofW {α : Type} (m : W α) : S α := fun fl s =>
  let r := m (fun n => fl (s.calls + n)) .start
  (r.1, s.did (r.2.ops.map .file) r.2.calls)

end S

/-! ### The script -/

/-- What differs between the five scripts: the names of the archive, of the directory it contains and of the output directory, and the encoding and text of the word list that is
used on docs.rs. -/
structure ScriptCfg where
  archive : Path
  input : Path
  output : Path
  encoding : Encoding
  dummy : Str

/-- `lindera-ipadic/build.rs` lines 25, 28, 31 and 43-50 and the corresponding lines of the other four scripts. -/
def ScriptCfg.ofKind : DictionaryKind → ScriptCfg
  | .ipadic => ⟨utf8 "mecab-ipadic-2.7.0-20070801.tar.gz".toList, utf8 "mecab-ipadic-2.7.0-20070801".toList, utf8 "lindera-ipadic".toList, .eucJp,
      "テスト,1288,1288,-1000,名詞,固有名詞,一般,*,*,*,*,*,*\n".toList⟩
  | .ipadicNeologd => ⟨utf8 "mecab-ipadic-neologd-0.0.7-20200820.tar.gz".toList, utf8 "mecab-ipadic-neologd-0.0.7-20200820".toList,
      utf8 "lindera-ipadic-neologd".toList, .utf8, "テスト,1288,1288,-1000,名詞,固有名詞,一般,*,*,*,*,*,*\n".toList⟩
  | .unidic => ⟨utf8 "unidic-mecab-2.1.2.tar.gz".toList, utf8 "unidic-mecab-2.1.2".toList, utf8 "lindera-unidic".toList, .utf8,
      "テスト,5131,5131,767,名詞,普通名詞,サ変可能,*,*,*,テスト,テスト-test,テスト,テスト,テスト,テスト,外,*,*,*,*\n".toList⟩
  | .koDic => ⟨utf8 "mecab-ko-dic-2.1.1-20180720.tar.gz".toList, utf8 "mecab-ko-dic-2.1.1-20180720".toList, utf8 "lindera-ko-dic".toList, .utf8,
      "테스트,1785,3543,4721,NNG,행위,F,테스트,*,*,*,*\n".toList⟩
  | .ccCedict => ⟨utf8 "CC-CEDICT-MeCab-0.1.0-20200409.tar.gz".toList, utf8 "CC-CEDICT-MeCab-0.1.0-20200409".toList, utf8 "lindera-cc-cedict".toList, .utf8,
      "测试,0,0,-1131,*,*,*,*,ce4 shi4,測試,测试,to test (machinery etc)/to test (students)/test/quiz/exam/beta (software)/\n".toList⟩

/-- An entry of an archive: a directory, or a file with the pieces in which its contents are written. Paths are relative. -/
inductive ArchiveEntry where
  | dir (p : Path)
  | file (p : Path) (pieces : List (List UInt8))

/-- What the scripts depend on: the dictionary compilers, `OUT_DIR`, encoding a text, reading an archive (the entries, and whether it could be read to its end), and the listing of
`*.csv` files, given the files of a directory by their names in it. -/
structure ScriptEnv where
  build : BuildEnv
  outDir : Path
  encode : Encoding → Str → List UInt8
  unpack : List UInt8 → List ArchiveEntry × Bool
  glob : Fs → List Path

/-- The answer of the server to a request: none (or an error status), or a body in pieces; `ended` is false if reading the body ends with an error. -/
inductive Response where
  | refused
  | body (pieces : List (List UInt8)) (ended : Bool)

/-- The circumstances of one run of a script: whether `DOCS_RS` is set, the answer of the server, and the source files that cannot be read. -/
structure RunEnv where
  docs : Bool
  response : Response
  unreadable : Path → Bool

namespace ScriptEnv

/-- `input_dir`, `build.rs` line 28. -/
def inputDir (env : ScriptEnv) (kind : DictionaryKind) : Path := env.outDir.join (ScriptCfg.ofKind kind).input
/-- `output_dir`, `build.rs` line 31. -/
def outputDir (env : ScriptEnv) (kind : DictionaryKind) : Path := env.outDir.join (ScriptCfg.ofKind kind).output
/-- `source_path_for_build`, `build.rs` line 58. -/
def archivePath (env : ScriptEnv) (kind : DictionaryKind) : Path := env.outDir.join (ScriptCfg.ofKind kind).archive
/-- `tmp_path`, `build.rs` line 63. -/
def tmpPath (env : ScriptEnv) (kind : DictionaryKind) : Path := env.outDir.join ((ScriptCfg.ofKind kind).archive ++ utf8 ".download".toList)

/-- Creating a file and writing it at once, `build.rs` lines 38-39, 42-50, 54-55. -/
def createWith (p : Path) (bytes : List UInt8) : S Unit := do
  S.call (.file (.create p))
  S.call (.file (.append p bytes))

/-- The sources for docs.rs, `build.rs` lines 33-55. -/
def docsSources (env : ScriptEnv) (kind : DictionaryKind) : S Unit := do
  let dir := env.inputDir kind
  let cfg := ScriptCfg.ofKind kind
  S.createDir dir
  createWith (dir.join (utf8 "char.def".toList)) (utf8 "DEFAULT 0 1 0\n".toList)
  createWith (dir.join (utf8 "dummy_dict.csv".toList)) (env.encode cfg.encoding cfg.dummy)
  S.call (.file (.create (dir.join (utf8 "unk.def".toList))))
  createWith (dir.join (utf8 "matrix.def".toList)) (utf8 "0 1 0\n".toList)

/-- `rename(..).expect(..)`, `build.rs` line 73. -/
def renameOrPanic (a b : Path) : S Unit := fun fl s =>
  match S.call (.rename a b) fl s with
  | (.ok _, s) => (.ok (), s)
  | (.error _, s) => (.error .panic, s)

/-- Downloading the archive, `build.rs` lines 63-73. Flushing a `File` does nothing. -/
def download (env : ScriptEnv) (kind : DictionaryKind) : Response → S Unit
  | .refused => S.fail (.err .io)
  | .body pieces ended => do
    S.call (.file (.create (env.tmpPath kind)))
    pieces.forM fun bytes => S.call (.file (.append (env.tmpPath kind) bytes))
    if ended then renameOrPanic (env.tmpPath kind) (env.archivePath kind) else S.fail (.err .io)

/-- Removing a file that is in the way (crate `tar`). -/
def removeIf (p : Path) (there : Bool) : S Unit := if there then S.call (.remove p) else pure ()

/-- Unpacking one entry (crate `tar`, `Entry::unpack`, with overwriting): an existing file is removed first. -/
def unpackEntry (env : ScriptEnv) : ArchiveEntry → S Unit
  | .dir p => S.call (.file (.mkdir (env.outDir.join p)))
  | .file p pieces => do
    let there ← S.fileExists (env.outDir.join p)
    removeIf (env.outDir.join p) there
    S.call (.file (.create (env.outDir.join p)))
    pieces.forM fun bytes => S.call (.file (.append (env.outDir.join p) bytes))

/-- `archive.unpack(&build_dir)`, `build.rs` lines 80-83. -/
def unpackAll (env : ScriptEnv) (bytes : List UInt8) : S Unit := do
  (env.unpack bytes).1.forM env.unpackEntry
  if (env.unpack bytes).2 then pure () else S.fail (.err .io)

/-- The real sources, `build.rs` lines 57-84. -/
def realSources (env : ScriptEnv) (kind : DictionaryKind) (response : Response) : S Unit := do
  let cached ← S.fileExists (env.archivePath kind)
  if cached then pure () else env.download kind response
  let bytes ← S.readFile (env.archivePath kind)
  env.unpackAll bytes

/-- What the compilers find in the source directory. They read it while they write the output directory; the model reads everything first. -/
def sourcesOn (env : ScriptEnv) (kind : DictionaryKind) (unreadable : Path → Bool) (fs : Fs) : SourceDir :=
  let file (name : Path) : Option (List UInt8) := if unreadable name then none else fs ((env.inputDir kind).join name)
  ⟨file (utf8 "char.def".toList), file (utf8 "unk.def".toList), file (utf8 "matrix.def".toList),
   (env.glob fun name => fs ((env.inputDir kind).join name)).map file⟩

/-- Reading the source directory. -/
def readSources (env : ScriptEnv) (kind : DictionaryKind) (unreadable : Path → Bool) : S SourceDir := fun _ s =>
  (.ok (env.sourcesOn kind unreadable s.disk.files), s)

/-- `main`, `build.rs` lines 4-91 (of `lindera-ipadic`; the others differ by a line or two). An error is returned, which ends the script with a failure. -/
def main (env : ScriptEnv) (kind : DictionaryKind) (run : RunEnv) : S Unit := do
  if run.docs then env.docsSources kind else env.realSources kind run.response
  let src ← env.readSources kind run.unreadable
  S.ofW (env.build.buildDictionary kind src (env.outputDir kind))

end ScriptEnv

/-- A freshly started script on a disk. -/
def SState.start (d : Disk) : SState := ⟨d, [], 0⟩

/-- The result of a run to its end. -/
def S.result {α : Type} (m : S α) (faults : Faults) (d : Disk) : R α := (m faults (.start d)).1
/-- The disk after a run to its end. -/
def S.after {α : Type} (m : S α) (faults : Faults) (d : Disk) : Disk := (m faults (.start d)).2.disk
/-- The calls that took effect in a run to its end. -/
def S.trace {α : Type} (m : S α) (faults : Faults) (d : Disk) : List DiskOp := (m faults (.start d)).2.log

end Verif.Model
