import Verif.Spec.BuildDir
import Mathlib.Logic.Function.Basic
import Mathlib.Logic.Relation
import Mathlib.Data.List.Forall2
/-!
Several programs that write files at the same time. Every program has its own position in every file it has created; a write goes to this position and moves it (the semantics of
`write` on file descriptors of Unix). Creating a file that is there empties it for everyone. The programs take turns in any order, and a write may be done in parts.
-/
namespace Verif.Spec
open Verif.Model

/-- Writing at a position: what was there is replaced, a gap before the position is filled with zeros, and what is behind stays. -/
def writeAt (old : List UInt8) (pos : Nat) (bytes : List UInt8) : List UInt8 :=
  (old ++ List.replicate (pos - old.length) 0).take pos ++ bytes ++ old.drop (pos + bytes.length)

/-- A running program: the calls it has yet to make and its positions in the files it has created. -/
structure Process where
  todo : List FsOp
  pos : Path → Option Nat

/-- The disk and the running programs. -/
structure World (ι : Type) where
  fs : Fs
  procs : ι → Process

/-- The programs are started. -/
def World.start {ι : Type} (fs : Fs) (calls : ι → List FsOp) : World ι := ⟨fs, fun i => ⟨calls i, fun _ => none⟩⟩

/-- All programs have ended. -/
def World.Ended {ι : Type} (w : World ι) : Prop := ∀ i, (w.procs i).todo = []

/-- One of the programs makes a call, or a part of a write. -/
inductive Turn {ι : Type} [DecidableEq ι] : World ι → World ι → Prop
  | mkdir (w : World ι) (i : ι) (p : Path) (rest : List FsOp) (pos : Path → Option Nat) (h : w.procs i = ⟨.mkdir p :: rest, pos⟩) :
      Turn w ⟨w.fs, Function.update w.procs i ⟨rest, pos⟩⟩
  | create (w : World ι) (i : ι) (p : Path) (rest : List FsOp) (pos : Path → Option Nat) (h : w.procs i = ⟨.create p :: rest, pos⟩) :
      Turn w ⟨Function.update w.fs p (some []), Function.update w.procs i ⟨rest, Function.update pos p (some 0)⟩⟩
  | write (w : World ι) (i : ι) (p : Path) (now later : List UInt8) (rest : List FsOp) (pos : Path → Option Nat) (at' : Nat) (old : List UInt8)
      (h : w.procs i = ⟨.append p (now ++ later) :: rest, pos⟩) (hpos : pos p = some at') (hold : w.fs p = some old) :
      Turn w ⟨Function.update w.fs p (some (writeAt old at' now)),
        Function.update w.procs i ⟨if later = [] then rest else .append p later :: rest, Function.update pos p (some (at' + now.length))⟩⟩

/-- Any number of turns, in any order. -/
def Turns {ι : Type} [DecidableEq ι] : World ι → World ι → Prop := Relation.ReflTransGen Turn

/-- A build of a dictionary: the compiler, the kind of dictionary, the sources and the directory that is written. -/
structure Job where
  env : BuildEnv
  kind : DictionaryKind
  src : SourceDir
  out : Path

/-- The calls of a build none of whose calls fails. -/
def Job.calls (j : Job) : List FsOp := (j.env.buildDictionary j.kind j.src j.out).trace fun _ => none

/-- The calls that take effect in a build some of whose calls fail. (A write that fails may have written a part.) -/
def Job.callsWith (j : Job) (faults : Faults) : List FsOp := (j.env.buildDictionary j.kind j.src j.out).trace faults

/-- The build reports success. -/
def Job.Succeeds (j : Job) (faults : Faults) : Prop := (j.env.buildDictionary j.kind j.src j.out).result faults = .ok ()

/-- The files that a build is to write, and what they are to hold. -/
def Job.Writes (j : Job) (p : Path) (bytes : List UInt8) : Prop :=
  ∃ c, compile j.env j.kind j.src = .ok c ∧ ∃ e ∈ c.files j.env.format, p = inDir j.out e.1 ∧ bytes = compressWrite j.env.feature j.env.flate e.2 .deflate

/-- Data put together from several contents: every byte is the one that one of the contents has at this position, or zero, and the whole is not longer than all of them. -/
def Patched (contents : List UInt8 → Prop) (bytes : List UInt8) : Prop :=
  (∃ full, contents full ∧ bytes.length ≤ full.length) ∧ ∀ k, k < bytes.length → (∃ full, contents full ∧ bytes[k]? = full[k]?) ∨ bytes[k]? = some 0

/-- The files are read one after the other while a program makes its calls: `files` holds what was read. -/
def ReadDuring (fs : Fs) (calls : List FsOp) (order : List Path) (files : Fs) : Prop :=
  ∃ moments : List Nat, moments.Pairwise (· ≤ ·) ∧ List.Forall₂ (fun p n => files p = runOps fs (calls.take n) p) order moments

/-- The order in which the files of a dictionary directory are read. -/
def readOrder (dir : Path) : List Path :=
  ["dict.da", "dict.vals", "matrix.mtx", "char_def.bin", "unk.bin", "dict.wordsidx", "dict.words"].map (inDir dir)

end Verif.Spec
