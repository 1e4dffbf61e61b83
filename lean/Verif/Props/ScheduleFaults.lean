import Verif.Props.Schedule
/-! C104: builds that run at the same time while calls of the operating system fail. -/
namespace Verif.Props
open Verif.Model Verif.Spec

section
variable {ι : Type} [DecidableEq ι]

/-- C104: at every moment, whatever calls fail in whatever programs, and also if some are killed, a file is as it was before, or it is put together from what the builds are to write
there, byte by byte, with zeros in some places. -/
theorem c104_faults_moments (jobs : ι → Job) (faults : ι → Faults) (hp : ∀ i, PiecesOk (jobs i).env) (hc : ∀ i, ∃ c, compile (jobs i).env (jobs i).kind (jobs i).src = .ok c) (fs : Fs)
    (w : World ι) (hr : Turns (World.start fs fun i => (jobs i).callsWith (faults i)) w) (p : Path) :
    w.fs p = fs p ∨ ∃ y, w.fs p = some y ∧ Patched (fun b => ∃ i, (jobs i).Writes p b) y := by
  refine runs_patched (fun i o ho => ?_) hr
  obtain ⟨c, hc⟩ := hc i
  have h := c62_files (jobs i).env (hp i) (jobs i).kind (jobs i).src c hc (jobs i).out _ _ o ho
  by_cases he : ∃ e ∈ c.files (jobs i).env.format, p = inDir (jobs i).out e.1
  · obtain ⟨e, he, rfl⟩ := he
    rcases h.1 e he with h | ⟨x, h, hx⟩
    · exact .inl h
    · exact .inr ⟨x, h, _, ⟨i, c, hc, e, he, rfl, rfl⟩, hx⟩
  · exact .inl (h.2 p fun e hm hpe => he ⟨e, hm, hpe.symm⟩)

/-- C104: whatever calls fail, if all programs report success then every file other than `dict.da`, for which the builds that write it agree, holds exactly what they are to write. (`dict.da`
may be incomplete even if a program runs alone, see C61. If one of the programs reports an error this is false, see below.) -/
theorem c104_faults_partial (jobs : ι → Job) (faults : ι → Faults) (hp : ∀ i, PiecesOk (jobs i).env) (fs : Fs) (w : World ι)
    (hr : Turns (World.start fs fun i => (jobs i).callsWith (faults i)) w) (he : w.Ended) (hok : ∀ i, (jobs i).Succeeds (faults i)) (p : Path)
    (hda : ∀ i, p ≠ inDir (jobs i).out "dict.da") (bytes : List UInt8) (hw : ∃ i, (jobs i).Writes p bytes) (hsame : ∀ i b, (jobs i).Writes p b → b = bytes) :
    w.fs p = some bytes := by
  have hcase : ∀ i, (∀ o, Crashed (fun _ => none) ((jobs i).callsWith (faults i)) o → o p = none ∨ ∃ x, o p = some x ∧ x <+: bytes) ∧
      (runOps (fun _ => none) ((jobs i).callsWith (faults i)) p = none ∨ runOps (fun _ => none) ((jobs i).callsWith (faults i)) p = some bytes) ∧
      ((jobs i).Writes p bytes → runOps (fun _ => none) ((jobs i).callsWith (faults i)) p = some bytes) := by
    intro i
    obtain ⟨c, hc, hend⟩ := c61_reported_partial (jobs i).env (hp i) (jobs i).kind (jobs i).src (jobs i).out (faults i) (fun _ => none) (hok i)
    have hcr := fun o ho => c62_files (jobs i).env (hp i) (jobs i).kind (jobs i).src c hc (jobs i).out (faults i) (fun _ => none) o ho
    by_cases h : ∃ e ∈ c.files (jobs i).env.format, p = inDir (jobs i).out e.1
    · obtain ⟨e, hm, rfl⟩ := h
      have hb := hsame i _ ⟨c, hc, e, hm, rfl, rfl⟩
      obtain ⟨x, h1, -, h2⟩ := hend e hm
      rw [h2 fun hn => hda i (by rw [hn])] at h1
      rw [← hb]
      exact ⟨fun o ho => (hcr o ho).1 e hm, .inr h1, fun _ => h1⟩
    · have hno : ∀ e ∈ c.files (jobs i).env.format, inDir (jobs i).out e.1 ≠ p := fun e hm hpe => h ⟨e, hm, hpe.symm⟩
      refine ⟨fun o ho => .inl ((hcr o ho).2 p hno), .inl ((hcr _ (crashed_end _ _)).2 p hno), ?_⟩
      rintro ⟨c', hc', e, hm, hpe, -⟩
      rw [hc] at hc'; cases hc'
      exact absurd ⟨e, hm, hpe⟩ h
  obtain ⟨i, hi⟩ := hw
  exact runs_ended (fun i => (hcase i).1) (fun i => (hcase i).2.1) hr he ⟨i, (hcase i).2.2 hi⟩

/-- C104: programs that write the same compiled user dictionary to the same file at the same time, whatever calls fail: if all report success then the file is complete and loads back. -/
theorem c104_faults_user [Nonempty ι] (env : BuildEnv) (hp : PiecesOk env) (u : UserDictionary) (p : Path) (hu : UserDictTyped env.format u)
    (hv : env.format.view (env.format.store u.dict.da) = u.dict.da) (faults : ι → Faults) (fs : Fs) (w : World ι)
    (hr : Turns (World.start fs fun i => (env.buildUserDictionary u p).trace (faults i)) w) (he : w.Ended) (hok : ∀ i, (env.buildUserDictionary u p).result (faults i) = .ok ())
    (load : LoadEnv) (hl : load.format = env.format) (hfs : load.files = w.fs) : load.loadUserFromBin p = .ok u := by
  have h := fun i => tri_start (fs := fun _ => none) (Q := fun r c _ => Final _ _ r c) (user_file (fl := faults i) (old := none) hp u p)
  have hend : ∀ i, runOps (fun _ => none) ((env.buildUserDictionary u p).trace (faults i)) p = some (u.bytes env.format) := by
    intro i
    have h2 := (h i).2
    rw [show (env.buildUserDictionary u p).result (faults i) = .ok () from hok i] at h2
    rcases h2 with ⟨-, h2⟩ | ⟨⟨e, h2⟩, -⟩
    · exact h2
    · cases h2
  have hp' := runs_ended (fun i o ho => (h i).1 o ho) (fun i => .inr (hend i)) hr he ⟨Classical.arbitrary ι, hend _⟩
  have hread : load.readFile p = .ok (u.bytes env.format) := by
    unfold LoadEnv.readFile
    rw [hfs, hp']
  unfold LoadEnv.loadUserFromBin
  rw [hread, bind_ok, hl]
  exact c25_user_dict env.format u hv hu
end

namespace Dir
/-- The calls of the sample build when the write of the double array fails. -/
def tornCalls : List FsOp := sourceCalls.take 12 ++ [.append (inDir out "dict.da") []] ++ sourceCalls.drop 13
theorem torn_trace : (env.buildDictionary .unidic source out).trace (failAt 12) = tornCalls := by decide +kernel

/-- All calls fail from the `n`-th on. -/
def failFrom (n : Nat) : Faults := fun i => if i < n then none else some 0
/-- The calls that write a user dictionary when the write fails, and when it does not. (The write is tried again when the writer is dropped.) -/
def userCalls (ok : Bool) : List FsOp :=
  if ok then [.mkdir out, .create out, .append out (Stored.userDict.bytes env.format)] else [.mkdir out, .create out, .append out [], .append out []]
theorem failed_trace : (env.buildUserDictionary Stored.userDict out).trace (failFrom 2) = userCalls false := by decide +kernel
end Dir

/-- C104 is false if a call fails in one of the programs: a program all of whose calls succeed reports success, but the user dictionary that it has written begins with zeros and cannot be
loaded, because the other program has emptied the file in the middle of the write and then reported an error. -/
theorem c104_failed_fails : ∃ (env : BuildEnv) (u : UserDictionary) (p : Path) (faults : Bool → Faults) (fs : Fs) (w : World Bool), PiecesOk env ∧ UserDictTyped env.format u ∧
    (env.buildUserDictionary u p).result (faults true) = .ok () ∧ (∀ n, faults true n = none) ∧ (env.buildUserDictionary u p).result (faults false) = .error (.err .io) ∧
    Turns (World.start fs fun i => (env.buildUserDictionary u p).trace (faults i)) w ∧ w.Ended ∧
    ∃ y, w.fs p = some y ∧ y.take 5 = [0, 0, 0, 0, 0] ∧ y ≠ u.bytes env.format ∧ (∀ u', (Dir.loader w.fs).loadUserFromBin p ≠ .ok u') := by
  let s := World.start Dir.empty Dir.userCalls
  let w := turnOf (takeTurns (partOf (takeTurns s [true, true]) true 5) [false, false, false, false]) true
  have hw : Turns s w := (((turns_takeTurns s [true, true]).trans (turns_partOf _ true 5)).trans (turns_takeTurns _ [false, false, false, false])).trans (turns_turnOf _ true)
  let faults : Bool → Faults := fun i => match i with
    | true => fun _ => none
    | false => Dir.failFrom 2
  have hcalls : (fun i => (Dir.env.buildUserDictionary Stored.userDict Dir.out).trace (faults i)) = Dir.userCalls := by
    funext i
    cases i
    · exact Dir.failed_trace
    · exact Dir.user_trace
  refine ⟨Dir.env, Stored.userDict, Dir.out, faults, Dir.empty, w, Dir.pieces, Stored.userDictTyped, ?_, fun _ => rfl, ?_, ?_, ?_, (w.fs Dir.out).getD [], ?_, ?_, ?_, ?_⟩
  · show (Dir.env.buildUserDictionary Stored.userDict Dir.out).result (fun _ => none) = .ok ()
    decide +kernel
  · show (Dir.env.buildUserDictionary Stored.userDict Dir.out).result (Dir.failFrom 2) = .error (.err .io)
    decide +kernel
  · rw [hcalls]; exact hw
  · have h : ∀ i, (w.procs i).todo = [] := by decide +kernel
    exact h
  · decide +kernel
  · decide +kernel
  · decide +kernel
  · intro u' h
    have : ((Dir.loader w.fs).loadUserFromBin Dir.out).toOption.isSome = false := by decide +kernel
    rw [h] at this
    cases this

/-- Non-vacuity: two programs build the same; in one of them the write of the double array fails unnoticed. Both report success, and the matrix is complete. -/
example : ∃ w : World Bool, Turns (World.start Dir.empty fun i => (Dir.job Dir.source).callsWith (if i then fun _ => none else Dir.failAt 12)) w ∧ w.Ended ∧
    (∀ i : Bool, (Dir.job Dir.source).Succeeds (if i then fun _ => none else Dir.failAt 12)) ∧
    w.fs (inDir Dir.out "matrix.mtx") = some [1, 0, 1, 0, 5, 0] := by
  have hcalls : (fun i : Bool => (Dir.job Dir.source).callsWith (if i then fun _ => none else Dir.failAt 12)) =
      fun i : Bool => if i then Dir.sourceCalls else Dir.tornCalls := by
    funext i
    cases i
    · exact Dir.torn_trace
    · exact Dir.source_trace
  rw [hcalls]
  refine ⟨takeTurns _ ((List.replicate 15 [true, false]).flatten), turns_takeTurns _ _, ?_, ?_, ?_⟩
  · have h : ∀ i, ((takeTurns (World.start Dir.empty fun i : Bool => if i then Dir.sourceCalls else Dir.tornCalls) ((List.replicate 15 [true, false]).flatten)).procs i).todo = [] := by
      decide +kernel
    exact h
  · intro i
    cases i
    · show (Dir.env.buildDictionary .unidic Dir.source Dir.out).result (Dir.failAt 12) = .ok ()
      decide +kernel
    · show (Dir.env.buildDictionary .unidic Dir.source Dir.out).result (fun _ => none) = .ok ()
      decide +kernel
  · decide +kernel

/-- Non-vacuity: two programs write the same user dictionary; all calls of one fail after it has made its three. -/
example : ∃ w : World Bool, Turns (World.start Dir.empty fun i => (Dir.env.buildUserDictionary Stored.userDict Dir.out).trace (if i then Dir.failFrom 3 else fun _ => none)) w ∧ w.Ended ∧
    (Dir.loader w.fs).loadUserFromBin Dir.out = .ok Stored.userDict := by
  have hcalls : (fun i : Bool => (Dir.env.buildUserDictionary Stored.userDict Dir.out).trace (if i then Dir.failFrom 3 else fun _ => none)) = fun _ => Dir.userCalls true := by
    funext i
    cases i
    · exact Dir.user_trace
    · have h : (Dir.env.buildUserDictionary Stored.userDict Dir.out).trace (Dir.failFrom 3) = Dir.userCalls true := by decide +kernel
      exact h
  have h : ∃ w : World Bool, Turns (World.start Dir.empty fun i => (Dir.env.buildUserDictionary Stored.userDict Dir.out).trace (if i then Dir.failFrom 3 else fun _ => none)) w ∧ w.Ended := by
    rw [hcalls]
    refine ⟨_, turns_takeTurns _ [true, false, false, true, true, false], ?_⟩
    have h : ∀ i, ((takeTurns (World.start Dir.empty fun _ : Bool => Dir.userCalls true) [true, false, false, true, true, false]).procs i).todo = [] := by decide +kernel
    exact h
  obtain ⟨w, hr, he⟩ := h
  refine ⟨w, hr, he, c104_faults_user Dir.env Dir.pieces Stored.userDict Dir.out Stored.userDictTyped (by decide +kernel) _ Dir.empty w hr he (fun i => ?_) (Dir.loader w.fs) rfl rfl⟩
  cases i
  · show (Dir.env.buildUserDictionary Stored.userDict Dir.out).result (fun _ => none) = .ok ()
    decide +kernel
  · show (Dir.env.buildUserDictionary Stored.userDict Dir.out).result (Dir.failFrom 3) = .ok ()
    decide +kernel

end Verif.Props
