import Verif.Proofs.Schedule
import Verif.Props.BuildDir
/-! C104: builds that run at the same time. -/
namespace Verif.Props
open Verif.Model Verif.Spec

/-- The files of a build, as it sees them itself: the ones it is to write have a beginning of their contents, and there are no others. -/
private theorem job_view {j : Job} (hp : PiecesOk j.env) {c : CompiledParts} (hc : compile j.env j.kind j.src = .ok c) (p : Path) :
    (∃ bytes, j.Writes p bytes ∧ (∀ o, Crashed (fun _ => none) j.calls o → o p = none ∨ ∃ x, o p = some x ∧ x <+: bytes) ∧ runOps (fun _ => none) j.calls p = some bytes) ∨
    (∀ bytes, ¬ j.Writes p bytes) ∧ ∀ o, Crashed (fun _ => none) j.calls o → o p = none := by
  by_cases h : ∃ e ∈ c.files j.env.format, p = inDir j.out e.1
  · obtain ⟨e, he, rfl⟩ := h
    refine .inl ⟨_, ⟨c, hc, e, he, rfl, rfl⟩, fun o ho => ?_, ?_⟩
    · exact (c62_files j.env hp j.kind j.src c hc j.out _ _ o ho).1 e he
    · exact (c59_build j.env hp j.kind j.src c hc j.out _ (fun _ => rfl) _).2.1 e he
  · refine .inr ⟨?_, fun o ho => ?_⟩
    · rintro bytes ⟨c', hc', e, he, hpe, -⟩
      rw [hc] at hc'
      cases hc'
      exact h ⟨e, he, hpe⟩
    · exact (c62_files j.env hp j.kind j.src c hc j.out _ _ o ho).2 p fun e he hpe => h ⟨e, he, hpe.symm⟩

section
variable {ι : Type} [DecidableEq ι]

/-- C104: any number of builds run at the same time, taking turns in any order, also in the middle of writes. When all have ended, every file for which the builds that write it agree
holds exactly what they are to write. (If they do not agree this is false, see below.) -/
theorem c104_files_partial (jobs : ι → Job) (hp : ∀ i, PiecesOk (jobs i).env) (hc : ∀ i, ∃ c, compile (jobs i).env (jobs i).kind (jobs i).src = .ok c) (fs : Fs) (w : World ι)
    (hr : Turns (World.start fs fun i => (jobs i).calls) w) (he : w.Ended) (p : Path) (bytes : List UInt8) (hw : ∃ i, (jobs i).Writes p bytes)
    (hsame : ∀ i b, (jobs i).Writes p b → b = bytes) : w.fs p = some bytes := by
  have hv := fun i => job_view (hp i) (hc i).choose_spec p
  have hcase : ∀ i, (∀ o, Crashed (fun _ => none) (jobs i).calls o → o p = none ∨ ∃ x, o p = some x ∧ x <+: bytes) ∧
      (runOps (fun _ => none) (jobs i).calls p = none ∨ runOps (fun _ => none) (jobs i).calls p = some bytes) ∧
      ((jobs i).Writes p bytes → runOps (fun _ => none) (jobs i).calls p = some bytes) := by
    intro i
    rcases hv i with ⟨b, h1, h2, h3⟩ | ⟨h1, h2⟩
    · obtain rfl := hsame i b h1
      exact ⟨h2, .inr h3, fun _ => h3⟩
    · exact ⟨fun o ho => .inl (h2 o ho), .inl (h2 _ (crashed_end _ _)), fun h => absurd h (h1 _)⟩
  obtain ⟨i, hi⟩ := hw
  exact runs_ended (fun i => (hcase i).1) (fun i => (hcase i).2.1) hr he ⟨i, (hcase i).2.2 hi⟩

/-- C104: at every moment, files that none of the builds is to write are as they were. -/
theorem c104_others (jobs : ι → Job) (hp : ∀ i, PiecesOk (jobs i).env) (hc : ∀ i, ∃ c, compile (jobs i).env (jobs i).kind (jobs i).src = .ok c) (fs : Fs) (w : World ι)
    (hr : Turns (World.start fs fun i => (jobs i).calls) w) (q : Path) (hq : ∀ i b, ¬ (jobs i).Writes q b) : w.fs q = fs q := by
  refine runs_untouched (fun i o ho => ?_) hr
  rcases job_view (hp i) (hc i).choose_spec q with ⟨b, h, -⟩ | ⟨-, h⟩
  · exact absurd h (hq i b)
  · exact h o ho

/-- C104: at every moment, also if some of the builds are killed, a file is as it was before, or it is put together from what the builds are to write there, byte by byte, with zeros in
some places. (That contents are mixed and zeros occur is shown below.) -/
theorem c104_moments (jobs : ι → Job) (hp : ∀ i, PiecesOk (jobs i).env) (hc : ∀ i, ∃ c, compile (jobs i).env (jobs i).kind (jobs i).src = .ok c) (fs : Fs) (w : World ι)
    (hr : Turns (World.start fs fun i => (jobs i).calls) w) (p : Path) : w.fs p = fs p ∨ ∃ y, w.fs p = some y ∧ Patched (fun b => ∃ i, (jobs i).Writes p b) y := by
  refine runs_patched (fun i o ho => ?_) hr
  rcases job_view (hp i) (hc i).choose_spec p with ⟨b, h1, h2, -⟩ | ⟨-, h⟩
  · rcases h2 o ho with h | ⟨x, h, hx⟩
    · exact .inl h
    · exact .inr ⟨x, h, b, ⟨i, h1⟩, hx⟩
  · exact .inl (h o ho)

/-- C104: if the same dictionary is built into the same directory by any number of programs at the same time, then in the end all files are as if one of them had run alone. -/
theorem c104_same [Nonempty ι] (j : Job) (hp : PiecesOk j.env) (hc : ∃ c, compile j.env j.kind j.src = .ok c) (fs : Fs) (w : World ι)
    (hr : Turns (World.start fs fun _ => j.calls) w) (he : w.Ended) : w.fs = runOps fs j.calls := by
  obtain ⟨c, hc⟩ := hc
  funext p
  by_cases h : ∃ e ∈ c.files j.env.format, p = inDir j.out e.1
  · obtain ⟨e, hm, rfl⟩ := h
    have h1 := (c59_build j.env hp j.kind j.src c hc j.out (fun _ => none) (fun _ => rfl) fs).2.1 e hm
    have h0 := (c59_build j.env hp j.kind j.src c hc j.out (fun _ => none) (fun _ => rfl) (fun _ => none)).2.1 e hm
    refine Eq.trans ?_ h1.symm
    refine c104_files_partial (fun _ => j) (fun _ => hp) (fun _ => ⟨c, hc⟩) fs w hr he _ _ ⟨Classical.arbitrary ι, c, hc, e, hm, rfl, rfl⟩ ?_
    rintro - b ⟨c', hc', e', hm', hpe, rfl⟩
    rw [hc] at hc'
    cases hc'
    have h2 := (c59_build j.env hp j.kind j.src c hc j.out (fun _ => none) (fun _ => rfl) (fun _ => none)).2.1 e' hm'
    rw [← hpe, h0] at h2
    exact (Option.some.inj h2).symm
  · rw [c104_others (fun _ => j) (fun _ => hp) (fun _ => ⟨c, hc⟩) fs w hr p]
    · exact ((c59_build j.env hp j.kind j.src c hc j.out (fun _ => none) (fun _ => rfl) fs).2.2 p fun e hm hpe => h ⟨e, hm, hpe.symm⟩).symm
    · rintro - b ⟨c', hc', e, hm, hpe, -⟩
      rw [hc] at hc'
      cases hc'
      exact h ⟨e, hm, hpe⟩

/-- C104: builds into different directories do not disturb each other, whatever they build. -/
theorem c104_apart (jobs : ι → Job) (hp : ∀ i, PiecesOk (jobs i).env) (hc : ∀ i, ∃ c, compile (jobs i).env (jobs i).kind (jobs i).src = .ok c) (fs : Fs) (w : World ι)
    (hr : Turns (World.start fs fun i => (jobs i).calls) w) (he : w.Ended) (hd : ∀ i j p b b', (jobs i).Writes p b → (jobs j).Writes p b' → i = j) (i : ι) (p : Path)
    (b : List UInt8) (hw : (jobs i).Writes p b) : w.fs p = runOps fs (jobs i).calls p := by
  obtain ⟨c, hci, e, hm, rfl, rfl⟩ := hw
  have h1 : ∀ fs e, e ∈ c.files (jobs i).env.format → runOps fs (jobs i).calls (inDir (jobs i).out e.1) = _ :=
    fun fs => (c59_build (jobs i).env (hp i) (jobs i).kind (jobs i).src c hci (jobs i).out (fun _ => none) (fun _ => rfl) fs).2.1
  rw [h1 fs e hm]
  refine c104_files_partial jobs hp hc fs w hr he _ _ ⟨i, c, hci, e, hm, rfl, rfl⟩ fun k b hk => ?_
  obtain rfl := hd k i _ _ _ hk ⟨c, hci, e, hm, rfl, rfl⟩
  obtain ⟨c', hc', e', hm', hpe, rfl⟩ := hk
  rw [hci] at hc'
  cases hc'
  have h2 := h1 fs e' hm'
  rw [← hpe, h1 fs e hm] at h2
  exact (Option.some.inj h2).symm

/-- C104: programs that write the same compiled user dictionary to the same file at the same time leave it complete, and it loads back. -/
theorem c104_user [Nonempty ι] (env : BuildEnv) (hp : PiecesOk env) (u : UserDictionary) (p : Path) (hu : UserDictTyped env.format u)
    (hv : env.format.view (env.format.store u.dict.da) = u.dict.da) (fs : Fs) (w : World ι)
    (hr : Turns (World.start fs fun _ => (env.buildUserDictionary u p).trace fun _ => none) w) (he : w.Ended) (load : LoadEnv) (hl : load.format = env.format)
    (hfs : load.files = w.fs) : load.loadUserFromBin p = .ok u := by
  have h := tri_start (fs := fun _ => none) (Q := fun r c _ => Final _ _ r c) (user_file (fl := fun _ => none) (old := none) hp u p)
  have hend : runOps (fun _ => none) ((env.buildUserDictionary u p).trace fun _ => none) p = some (u.bytes env.format) := by
    have h2 := h.2
    rw [show (env.buildUserDictionary u p).result (fun _ => none) = .ok () from user_gives (fun _ => rfl) u p .start] at h2
    rcases h2 with ⟨-, h2⟩ | ⟨⟨e, h2⟩, -⟩
    · exact h2
    · cases h2
  have hp' := runs_ended (fun _ o ho => h.1 o ho) (fun _ => .inr hend) hr he ⟨Classical.arbitrary ι, hend⟩
  have hread : load.readFile p = .ok (u.bytes env.format) := by
    unfold LoadEnv.readFile
    rw [hfs, hp']
  unfold LoadEnv.loadUserFromBin
  rw [hread, bind_ok, hl]
  exact c25_user_dict env.format u hv hu

/-- One whole call of a program, for the examples. -/
def turnOf (w : World ι) (i : ι) : World ι :=
  match w.procs i with
  | ⟨[], _⟩ => w
  | ⟨.mkdir _ :: rest, pos⟩ => ⟨w.fs, Function.update w.procs i ⟨rest, pos⟩⟩
  | ⟨.create p :: rest, pos⟩ => ⟨Function.update w.fs p (some []), Function.update w.procs i ⟨rest, Function.update pos p (some 0)⟩⟩
  | ⟨.append p bytes :: rest, pos⟩ =>
    match pos p, w.fs p with
    | some at', some old => ⟨Function.update w.fs p (some (writeAt old at' bytes)), Function.update w.procs i ⟨rest, Function.update pos p (some (at' + bytes.length))⟩⟩
    | _, _ => w

theorem turns_turnOf (w : World ι) (i : ι) : Turns w (turnOf w i) := by
  unfold turnOf
  split
  · exact .refl
  · rename_i h
    exact .single (.mkdir w i _ _ _ h)
  · rename_i h
    exact .single (.create w i _ _ _ h)
  · rename_i h
    split
    · rename_i h1 h2
      have := Turn.write w i _ _ [] _ _ _ _ (by rw [List.append_nil]; exact h) h1 h2
      rw [if_pos rfl] at this
      exact .single this
    · exact .refl

/-- The programs take turns in the given order. -/
def takeTurns (w : World ι) (order : List ι) : World ι := order.foldl turnOf w

theorem turns_takeTurns (w : World ι) (order : List ι) : Turns w (takeTurns w order) := by
  induction order generalizing w with
  | nil => exact .refl
  | cons i order ih => exact Relation.ReflTransGen.trans (turns_turnOf w i) (ih _)
end

namespace Dir
def job (src : SourceDir) : Job := ⟨env, .unidic, src, out⟩

theorem newer_compiles : ∃ c, compile env .unidic newer = .ok c := by
  have h : (compile env .unidic newer).toOption.isSome = true := by decide +kernel
  cases hc : compile env .unidic newer with
  | ok c => exact ⟨c, rfl⟩
  | error e => rw [hc] at h; simp [Except.toOption] at h

/-- Two builds of the same sources, call by call in turn. -/
def twice : World Bool := takeTurns (World.start empty fun _ => (job source).calls) ((List.replicate 15 [true, false]).flatten)

theorem twice_ended : twice.Ended := by
  have h : ∀ i, (twice.procs i).todo = [] := by
    unfold twice
    rw [show (job source).calls = sourceCalls from source_trace]
    decide +kernel
  exact h
end Dir

/-- Two programs that build the same dictionary in turn. -/
example : Dir.twice.fs = runOps Dir.empty (Dir.job Dir.source).calls :=
  c104_same (Dir.job Dir.source) Dir.pieces ⟨_, Dir.compiles⟩ Dir.empty Dir.twice (turns_takeTurns _ _) Dir.twice_ended

namespace Dir
def other : Path := utf8 "other".toList

/-- Different sources, different directories. -/
def jobs (b : Bool) : Job := if b then job source else { job newer with out := other }

/-- The same call in the other directory. -/
def moved : FsOp → FsOp
  | .mkdir p => .mkdir (other ++ p.drop 3)
  | .create p => .create (other ++ p.drop 3)
  | .append p bytes => .append (other ++ p.drop 3) bytes

theorem moved_trace : ({ job newer with out := other } : Job).calls = newerCalls.map moved := by decide +kernel

theorem jobs_calls : (fun b => (jobs b).calls) = fun b => if b then sourceCalls else newerCalls.map moved := by
  funext b
  cases b
  · exact moved_trace
  · exact source_trace

theorem jobs_apart (i j : Bool) (p : Path) (b b' : List UInt8) (h : (jobs i).Writes p b) (h' : (jobs j).Writes p b') : i = j := by
  have names : ∀ (k : Bool) (b : List UInt8), (jobs k).Writes p b →
      p ∈ ["char_def.bin", "unk.bin", "dict.da", "dict.vals", "dict.words", "dict.wordsidx", "matrix.mtx"].map (inDir (if k then out else other)) := by
    rintro k b ⟨c, -, e, he, rfl, -⟩
    have : (jobs k).out = if k then out else other := by cases k <;> rfl
    rw [this]
    simp only [CompiledParts.files, List.mem_cons, List.not_mem_nil, or_false] at he
    rcases he with rfl | rfl | rfl | rfl | rfl | rfl | rfl <;> simp
  have no : ∀ p ∈ ["char_def.bin", "unk.bin", "dict.da", "dict.vals", "dict.words", "dict.wordsidx", "matrix.mtx"].map (inDir out),
      p ∉ ["char_def.bin", "unk.bin", "dict.da", "dict.vals", "dict.words", "dict.wordsidx", "matrix.mtx"].map (inDir other) := by decide +kernel
  have h1 := names i b h
  have h2 := names j b' h'
  cases i <;> cases j
  · rfl
  · exact absurd h1 (no p h2)
  · exact absurd h2 (no p h1)
  · rfl

def apart : World Bool := takeTurns (World.start empty fun b => (jobs b).calls) ((List.replicate 15 [true, false]).flatten)
end Dir

/-- Two builds into different directories, in turn. -/
example (i : Bool) (p : Path) (b : List UInt8) (hw : (Dir.jobs i).Writes p b) : Dir.apart.fs p = runOps Dir.empty (Dir.jobs i).calls p := by
  refine c104_apart Dir.jobs (fun i => ?_) (fun i => ?_) Dir.empty Dir.apart (turns_takeTurns _ _) ?_ Dir.jobs_apart i p b hw
  · cases i <;> exact Dir.pieces
  · cases i
    · exact Dir.newer_compiles
    · exact ⟨_, Dir.compiles⟩
  · have h : ∀ i, (Dir.apart.procs i).todo = [] := by
      unfold Dir.apart
      rw [Dir.jobs_calls]
      decide +kernel
    exact h

theorem Dir.user_trace : ((Dir.env.buildUserDictionary Stored.userDict Dir.out).trace fun _ => none) =
    [.mkdir Dir.out, .create Dir.out, .append Dir.out (Stored.userDict.bytes Dir.env.format)] := by decide +kernel

/-- Three programs write the same user dictionary, in turn. -/
example : ∃ w : World (Fin 3), Turns (World.start Dir.empty fun _ => (Dir.env.buildUserDictionary Stored.userDict Dir.out).trace fun _ => none) w ∧ w.Ended ∧
    (Dir.loader w.fs).loadUserFromBin Dir.out = .ok Stored.userDict := by
  have h : ∃ w : World (Fin 3), Turns (World.start Dir.empty fun _ => (Dir.env.buildUserDictionary Stored.userDict Dir.out).trace fun _ => none) w ∧ w.Ended := by
    rw [Dir.user_trace]
    generalize Stored.userDict.bytes Dir.env.format = b
    refine ⟨_, turns_takeTurns _ [0, 1, 0, 2, 0, 1, 2, 2, 1], fun i => ?_⟩
    rcases i with ⟨_ | _ | _ | i, hi⟩
    · rfl
    · rfl
    · rfl
    · omega
  obtain ⟨w, hr, he⟩ := h
  exact ⟨w, hr, he, c104_user Dir.env Dir.pieces Stored.userDict Dir.out Stored.userDictTyped (by decide +kernel) Dir.empty w hr he (Dir.loader w.fs) rfl rfl⟩

/-- C104 is false for builds of different sources into the same directory: both report success, and the directory loads without an error with the words of one and the connection costs
of the other. -/
theorem c104_mixed_fails : ∃ (jobs : Bool → Job) (fs : Fs) (w : World Bool),
    (∀ i, PiecesOk (jobs i).env) ∧ (∀ i, (jobs i).out = Dir.out) ∧
    (∀ i, ((jobs i).env.buildDictionary (jobs i).kind (jobs i).src (jobs i).out).result (fun _ => none) = .ok ()) ∧
    Turns (World.start fs fun i => (jobs i).calls) w ∧ w.Ended ∧
    Dir.seen (runOps fs (jobs true).calls) = some ([utf8 ['a'], utf8 ['b']], some 5) ∧ Dir.seen (runOps fs (jobs false).calls) = some ([utf8 ['c']], some 9) ∧
    Dir.seen w.fs = some ([utf8 ['c']], some 5) := by
  let order := List.replicate 13 true ++ List.replicate 15 false ++ List.replicate 2 true
  have hcalls : (fun i => ((fun b : Bool => Dir.job (if b then Dir.source else Dir.newer)) i).calls) = fun b => if b then Dir.sourceCalls else Dir.newerCalls := by
    funext b
    cases b
    · exact Dir.newer_trace
    · exact Dir.source_trace
  refine ⟨fun b => Dir.job (if b then Dir.source else Dir.newer), Dir.empty,
    takeTurns (World.start Dir.empty fun b : Bool => if b then Dir.sourceCalls else Dir.newerCalls) order, fun _ => Dir.pieces, fun _ => rfl, fun i => ?_, ?_, ?_, ?_, ?_, ?_⟩
  · cases i <;> decide +kernel
  · rw [hcalls]; exact turns_takeTurns _ _
  · have h : ∀ i, ((takeTurns (World.start Dir.empty fun b : Bool => if b then Dir.sourceCalls else Dir.newerCalls) order).procs i).todo = [] := by decide +kernel
    exact h
  · have := congrFun hcalls true
    rw [this]; decide +kernel
  · have := congrFun hcalls false
    rw [this]; decide +kernel
  · decide +kernel

/-- A part of a write, for the example. -/
def partOf {ι : Type} [DecidableEq ι] (w : World ι) (i : ι) (k : Nat) : World ι :=
  match w.procs i with
  | ⟨.append p bytes :: rest, pos⟩ =>
    match pos p, w.fs p with
    | some at', some old =>
      ⟨Function.update w.fs p (some (writeAt old at' (bytes.take k))),
        Function.update w.procs i ⟨if bytes.drop k = [] then rest else .append p (bytes.drop k) :: rest, Function.update pos p (some (at' + (bytes.take k).length))⟩⟩
    | _, _ => w
  | _ => w

theorem turns_partOf {ι : Type} [DecidableEq ι] (w : World ι) (i : ι) (k : Nat) : Turns w (partOf w i k) := by
  unfold partOf
  split
  · rename_i bytes _ _ h
    split
    · rename_i h1 h2
      exact .single (.write w i _ _ _ _ _ _ _ (by rw [List.take_append_drop]; exact h) h1 h2)
    · exact .refl
  · exact .refl

/-- C104 is false if one of the programs is killed: a program that builds the same dictionary, and ends with success, can leave a file that begins with zeros. (The other program
emptied the file in the middle of the write.) -/
theorem c104_killed_fails : ∃ (j : Job) (fs : Fs) (w : World Bool), PiecesOk j.env ∧ (j.env.buildDictionary j.kind j.src j.out).result (fun _ => none) = .ok () ∧
    Turns (World.start fs fun _ => j.calls) w ∧ (w.procs true).todo = [] ∧
    runOps fs j.calls (inDir Dir.out "matrix.mtx") = some [1, 0, 1, 0, 5, 0] ∧ w.fs (inDir Dir.out "matrix.mtx") = some [0, 0, 0, 0, 0, 0] ∧
    Dir.seen (runOps fs j.calls) = some ([utf8 ['a'], utf8 ['b']], some 5) ∧ Dir.seen w.fs = some ([utf8 ['a'], utf8 ['b']], some 0) := by
  let s := World.start Dir.empty fun _ : Bool => Dir.sourceCalls
  let w := turnOf (takeTurns (partOf (takeTurns s (List.replicate 14 true)) true 5) (List.replicate 14 false)) true
  have hw : Turns s w := (((turns_takeTurns s (List.replicate 14 true)).trans (turns_partOf _ true 5)).trans (turns_takeTurns _ (List.replicate 14 false))).trans (turns_turnOf _ true)
  have hcalls : (Dir.job Dir.source).calls = Dir.sourceCalls := Dir.source_trace
  refine ⟨Dir.job Dir.source, Dir.empty, w, Dir.pieces, by decide +kernel, ?_, ?_⟩
  · rw [hcalls]; exact hw
  · rw [hcalls]; exact ⟨by decide +kernel, by decide +kernel, by decide +kernel, by decide +kernel, by decide +kernel⟩

/-! ### Loading while a dictionary is built -/

private theorem apply_some {fs : Fs} {op : FsOp} {q : Path} (h : fs q ≠ none) : op.apply fs q ≠ none := by
  cases op with
  | mkdir p => exact h
  | create p => simp only [FsOp.apply]; split <;> simp [h]
  | append p bytes => simp only [FsOp.apply]; split <;> simp [h]

private theorem runOps_some {q : Path} : ∀ (ops : List FsOp) {fs : Fs}, fs q ≠ none → runOps fs ops q ≠ none
  | [], _, h => h
  | _ :: ops, _, h => runOps_some ops (apply_some h)

/-- C104: if a dictionary is loaded while it is built into a new directory, and its connection matrix was already there when the loading started, then all other files are read
completely, and the connection matrix is read up to some point (C62 says what this means). -/
theorem c104_reader_partial (j : Job) (hp : PiecesOk j.env) (c : CompiledParts) (hc : compile j.env j.kind j.src = .ok c) (fs files : Fs)
    (hfresh : fs (inDir j.out "matrix.mtx") = none) (moments : List Nat) (hm : moments.Pairwise (· ≤ ·))
    (hread : List.Forall₂ (fun p n => files p = runOps fs (j.calls.take n) p) (readOrder j.out) moments)
    (hstart : ∀ n ∈ moments.head?, runOps fs (j.calls.take n) (inDir j.out "matrix.mtx") ≠ none) :
    (∀ e ∈ c.files j.env.format, e.1 ≠ "matrix.mtx" → files (inDir j.out e.1) = some (compressWrite j.env.feature j.env.flate e.2 .deflate)) ∧
      ∃ x, files (inDir j.out "matrix.mtx") = some x ∧ x <+: compressWrite j.env.feature j.env.flate c.matrix .deflate := by
  have hcr : ∀ n, Crashed fs j.calls (runOps fs (j.calls.take n)) := fun n => by
    have := Crashed.between (fs := fs) (j.calls.take n) (j.calls.drop n)
    rwa [List.take_append_drop] at this
  have hthere : ∀ n ∈ moments, runOps fs (j.calls.take n) (inDir j.out "matrix.mtx") ≠ none := by
    cases moments with
    | nil => simp
    | cons n ns =>
      have h0 := hstart n (by simp)
      intro k hk
      rcases List.mem_cons.mp hk with rfl | hk
      · exact h0
      · have hle := (List.pairwise_cons.mp hm).1 k hk
        have : j.calls.take k = j.calls.take n ++ (j.calls.take k).drop n := by
          conv_lhs => rw [← List.take_append_drop n (j.calls.take k)]
          rw [List.take_take, Nat.min_eq_left hle]
        rw [this, runOps_append]
        exact runOps_some _ h0
  have hfile : ∀ p ∈ readOrder j.out, ∃ n ∈ moments, files p = runOps fs (j.calls.take n) p := by
    clear hm hstart hthere
    generalize readOrder j.out = ps at hread
    induction hread with
    | nil => simp
    | cons h _ ih =>
      intro p hp
      rcases List.mem_cons.mp hp with rfl | hp
      · exact ⟨_, by simp, h⟩
      · obtain ⟨n, hn, h⟩ := ih p hp
        exact ⟨n, by simp [hn], h⟩
  constructor
  · intro e he hne
    have hmem : inDir j.out e.1 ∈ readOrder j.out := by
      simp only [CompiledParts.files, List.mem_cons, List.not_mem_nil, or_false] at he
      rcases he with rfl | rfl | rfl | rfl | rfl | rfl | rfl <;> simp [readOrder]
    obtain ⟨n, hn, h⟩ := hfile _ hmem
    rw [h]
    refine c62_order j.env hp j.kind j.src c hc j.out (fun _ => none) (fun _ => rfl) fs _ (hcr n) ?_ e he hne
    rw [hfresh]
    exact hthere n hn
  · obtain ⟨n, hn, h⟩ := hfile (inDir j.out "matrix.mtx") (by simp [readOrder])
    rw [h]
    rcases (c62_files j.env hp j.kind j.src c hc j.out (fun _ => none) fs _ (hcr n)).1 ("matrix.mtx", c.matrix) (by simp [CompiledParts.files]) with h' | h'
    · rw [hfresh] at h'; exact absurd h' (hthere n hn)
    · exact h'

/-- A load that starts after the last file was created. -/
example : ∃ files, ReadDuring Dir.empty (Dir.job Dir.source).calls (readOrder Dir.out) files ∧ Dir.seen files = some ([utf8 ['a'], utf8 ['b']], some 5) := by
  refine ⟨runOps Dir.empty Dir.sourceCalls, ⟨List.replicate 7 15, by decide, ?_⟩, by decide +kernel⟩
  rw [show (Dir.job Dir.source).calls = Dir.sourceCalls from Dir.source_trace]
  exact .cons rfl (.cons rfl (.cons rfl (.cons rfl (.cons rfl (.cons rfl (.cons rfl .nil))))))

/-- C104 is false for loading while a dictionary is built: also in a new directory it can happen that a dictionary without words is loaded, without an error. -/
theorem c104_reader_fails : ∃ (j : Job) (fs files : Fs), PiecesOk j.env ∧ (∀ q, fs q = none) ∧ ReadDuring fs j.calls (readOrder j.out) files ∧
    Dir.seen (runOps fs j.calls) = some ([utf8 ['a'], utf8 ['b']], some 5) ∧ Dir.seen files = some ([], some 5) := by
  refine ⟨Dir.job Dir.source, Dir.empty, fun p => if p = inDir Dir.out "dict.da" then some [] else runOps Dir.empty Dir.sourceCalls p, Dir.pieces, fun _ => rfl, ?_, ?_, by decide +kernel⟩
  · rw [show (Dir.job Dir.source).calls = Dir.sourceCalls from Dir.source_trace]
    refine ⟨[12, 15, 15, 15, 15, 15, 15], by decide, ?_⟩
    refine .cons ?_ (.cons ?_ (.cons ?_ (.cons ?_ (.cons ?_ (.cons ?_ (.cons ?_ .nil)))))) <;> decide +kernel
  · rw [show (Dir.job Dir.source).calls = Dir.sourceCalls from Dir.source_trace]
    decide +kernel

end Verif.Props
