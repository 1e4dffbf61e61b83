import Verif.Model.BuildScript
import Verif.Spec.Acceptance
import Verif.Spec.BuildDir
/-! What the build scripts of the dictionary crates are supposed to do, also when they are interrupted. -/
namespace Verif.Spec
open Verif.Model

/-- `d'` is what a kill can leave behind when the calls `ops` were to be performed one after the other on `d`: some of the calls have been performed completely, and if the next
one is a write, possibly a part of it. -/
inductive DiskCrashed (d : Disk) : List DiskOp → Disk → Prop
  | between (before after : List DiskOp) : DiskCrashed d (before ++ after) (runDisk d before)
  | within (before after : List DiskOp) (p : Path) (bytes : List UInt8) (k : Nat) :
      DiskCrashed d (before ++ .file (.append p bytes) :: after) (runDisk d (before ++ [.file (.append p (bytes.take k))]))

/-- A disk without files. -/
def Disk.empty : Disk := ⟨fun _ => none, fun _ => false⟩

/-- The server sends the archive `a` or fails: if the body ends without an error, it is `a`. -/
def Honest (a : List UInt8) (r : RunEnv) : Prop := ∀ pieces, r.response = .body pieces true → pieces.flatten = a

/-- The contents of the file with the name `p` in an archive (of the last one, if there are several). -/
def fileIn (entries : List ArchiveEntry) (p : Path) : Option (List UInt8) :=
  entries.foldl (fun found e =>
    match e with
    | .file q pieces => if q = p then some pieces.flatten else found
    | .dir _ => found) none

/-- The archive can be read, and all its files are in the directory the script expects. -/
def ArchiveOk (env : ScriptEnv) (kind : DictionaryKind) (a : List UInt8) : Prop :=
  (env.unpack a).2 = true ∧
    ∀ p pieces, ArchiveEntry.file p pieces ∈ (env.unpack a).1 → ∃ name, p = (ScriptCfg.ofKind kind).input ++ slash :: name

/-- The file `name` of the source directory in the archive. -/
def archived (env : ScriptEnv) (kind : DictionaryKind) (a : List UInt8) : Fs :=
  fun name => fileIn (env.unpack a).1 ((ScriptCfg.ofKind kind).input ++ slash :: name)

/-- The dictionary sources in the archive. -/
def archiveSources (env : ScriptEnv) (kind : DictionaryKind) (a : List UInt8) : SourceDir :=
  let file := archived env kind a
  ⟨file (utf8 "char.def".toList), file (utf8 "unk.def".toList), file (utf8 "matrix.def".toList), (env.glob file).map file⟩

/-- The disks that any number of runs of the script can leave behind, starting from an empty `OUT_DIR`: each run may be killed at any moment or run to its end, with any failures of
calls, any answers of a server that is honest about the archive `a`, and any unreadable files. Runs for docs.rs are included if `docs`. -/
inductive Disks (env : ScriptEnv) (kind : DictionaryKind) (a : List UInt8) (docs : Bool) : Disk → Prop
  | fresh : Disks env kind a docs Disk.empty
  | run {d d'} (r : RunEnv) (faults : Faults) : Disks env kind a docs d → Honest a r → (r.docs = true → docs = true) →
      DiskCrashed d ((env.main kind r).trace faults d) d' → Disks env kind a docs d'

/-- The listing of a directory contains each file with a name that ends with `.csv`, once. -/
def GlobOk (env : ScriptEnv) : Prop :=
  ∀ fs : Fs, (∃ names : List Path, ∀ name, fs name ≠ none → name ∈ names) →
    (env.glob fs).Nodup ∧ ∀ name, name ∈ env.glob fs ↔ fs name ≠ none ∧ slash ∉ name ∧ utf8 ".csv".toList <:+ name

/-- The texts that the scripts write for docs.rs are read as they are meant: ASCII text is the same in both encodings, and the encoded word list is one CSV record with the columns
that are separated by commas. -/
structure DocsOk (env : ScriptEnv) (kind : DictionaryKind) : Prop where
  ascii : ∀ text ∈ ["DEFAULT 0 1 0\n".toList, [], "0 1 0\n".toList], env.build.decode (ScriptCfg.ofKind kind).encoding (utf8 text) = text
  record : ∃ row : Row, env.build.csv (sourceFormat kind).flexible (ScriptCfg.ofKind kind).encoding (env.encode (ScriptCfg.ofKind kind).encoding (ScriptCfg.ofKind kind).dummy) = some [row] ∧
    Columns (· = ',') (ScriptCfg.ofKind kind).dummy.dropLast row.fields

end Verif.Spec
