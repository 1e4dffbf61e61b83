import Verif.Model.BuildDir
import Verif.Spec.Storage
/-! What building a dictionary directory is supposed to leave on disk. -/
namespace Verif.Spec
open Verif.Model

/-- The parts of a compiled dictionary. -/
structure CompiledParts where
  chardef : CharDefs
  unk : UnkDict
  dict : DictFiles
  matrix : List UInt8

/-- Compilation alone: character definitions, unknown words, the word list and the connection matrix, in this order, up to the first failure. Nothing is written. -/
def compile (env : BuildEnv) (kind : DictionaryKind) (src : SourceDir) : R CompiledParts := do
  let cfg := BuildCfg.ofKind kind
  let chardef ← env.compileChardef cfg src
  let unk ← env.compileUnk cfg src chardef
  let rows ← env.readRows cfg src.csvs
  let dict ← Model.buildDict env.yada cfg.dict rows
  let matrix ← env.compileMatrix cfg src
  return ⟨chardef, unk, dict, matrix⟩

/-- The names of the seven files and what they store (before compression). -/
def CompiledParts.files (c : CompiledParts) (format : DaFormat) : List (String × List UInt8) :=
  [("char_def.bin", c.chardef.bytes), ("unk.bin", c.unk.bytes), ("dict.da", format.store c.dict.da), ("dict.vals", c.dict.vals),
   ("dict.words", c.dict.words), ("dict.wordsidx", c.dict.wordsIdx), ("matrix.mtx", c.matrix)]

/-- The dictionary that these parts make. -/
def CompiledParts.dictionary (c : CompiledParts) (m : ConnMatrix) : Dictionary :=
  ⟨⟨c.dict.da, c.dict.vals, true⟩, m, c.chardef, c.unk, c.dict.wordsIdx, c.dict.words⟩

/-- The path of a file in a directory. -/
def inDir (dir : Path) (name : String) : Path := dir.join (utf8 name.toList)

/-- `fs'` is what a crash can leave behind when the calls `ops` were to be performed one after the other on `fs`: some of the calls have been performed
completely, and if the next one is a write, possibly a part of it. -/
inductive Crashed (fs : Fs) : List FsOp → Fs → Prop
  | between (before after : List FsOp) : Crashed fs (before ++ after) (runOps fs before)
  | within (before after : List FsOp) (p : Path) (bytes : List UInt8) (k : Nat) :
      Crashed fs (before ++ .append p bytes :: after) (runOps fs (before ++ [.append p (bytes.take k)]))

/-- The call is a write to the file `q`. -/
def WritesTo (q : Path) (op : FsOp) : Prop := ∃ bytes, op = .append q bytes

/-- The `n`-th of the calls is a write to the file `q`, and no later one is. -/
def LastWrite (ops : List FsOp) (q : Path) (n : Nat) : Prop :=
  (∃ op, ops[n]? = some op ∧ WritesTo q op) ∧ ∀ m, n < m → ∀ op, ops[m]? = some op → ¬ WritesTo q op

/-- No call fails. -/
def NoFaults (faults : Faults) : Prop := ∀ n, faults n = none

/-- Data reaches the writer completely and in order, in whatever pieces. -/
def PiecesOk (env : BuildEnv) : Prop := ∀ data, (env.pieces data).flatten = data

end Verif.Spec
