import Verif.Spec.BuildScript
import Verif.Proofs.BuildAll
import Verif.Proofs.Acceptance
/-! Program logic for the build scripts: weakest preconditions with a crash invariant. -/
namespace Verif.Model
open Verif.Spec

theorem runDisk_append (d : Disk) (a b : List DiskOp) : runDisk d (a ++ b) = runDisk (runDisk d a) b := by
  simp [runDisk, List.foldl_append]

@[simp] theorem runDisk_nil (d : Disk) : runDisk d [] = d := rfl
@[simp] theorem runDisk_single (d : Disk) (op : DiskOp) : runDisk d [op] = op.apply d := rfl

theorem diskCrashed_end (d : Disk) (ops : List DiskOp) : DiskCrashed d ops (runDisk d ops) := by
  have := DiskCrashed.between (d := d) ops []
  rwa [List.append_nil] at this

theorem diskCrashed_nil {d d' : Disk} (h : DiskCrashed d [] d') : d' = d := by
  generalize hx : ([] : List DiskOp) = x at h
  cases h with
  | between before after =>
    have := List.append_eq_nil_iff.mp hx.symm
    rw [this.1]; rfl
  | within before after p bytes k => simp at hx

theorem diskCrashed_append {d d' : Disk} {a b : List DiskOp} (h : DiskCrashed d (a ++ b) d') : DiskCrashed d a d' ∨ DiskCrashed (runDisk d a) b d' := by
  generalize hx : a ++ b = x at h
  cases h with
  | between before after =>
    rcases List.append_eq_append_iff.mp hx with ⟨m, h1, h2⟩ | ⟨m, h1, h2⟩
    · right; rw [h1, runDisk_append, h2]; exact .between _ _
    · left; rw [h1]; exact .between _ _
  | within before after p bytes k =>
    rcases List.append_eq_append_iff.mp hx with ⟨m, h1, h2⟩ | ⟨m, h1, h2⟩
    · right; rw [h1, List.append_assoc, runDisk_append, h2]; exact .within _ _ _ _ _
    · cases m with
      | nil =>
        right
        simp only [List.append_nil] at h1
        simp only [List.nil_append] at h2
        rw [h1, ← h2, runDisk_append]; exact DiskCrashed.within (d := runDisk d before) [] after p bytes k
      | cons o m =>
        left
        simp only [List.cons_append, List.cons.injEq] at h2
        obtain ⟨rfl, -⟩ := h2
        rw [h1]; exact .within _ _ _ _ _

theorem diskCrashed_single {d d' : Disk} {op : DiskOp} (h : DiskCrashed d [op] d') :
    d' = d ∨ d' = op.apply d ∨ ∃ p bytes k, op = .file (.append p bytes) ∧ d' = DiskOp.apply d (.file (.append p (bytes.take k))) := by
  generalize hx : [op] = x at h
  cases h with
  | between before after =>
    cases before with
    | nil => exact .inl rfl
    | cons o before =>
      simp only [List.cons_append, List.cons.injEq] at hx
      have := List.append_eq_nil_iff.mp hx.2.symm
      rw [← hx.1, this.1]; exact .inr (.inl rfl)
  | within before after p bytes k =>
    cases before with
    | nil =>
      simp only [List.nil_append, List.cons.injEq] at hx
      exact .inr (.inr ⟨p, bytes, k, hx.1, rfl⟩)
    | cons o before =>
      simp only [List.cons_append, List.cons.injEq] at hx
      exact absurd hx.2 (by simp)

/-- The files of the disk after calls of the compilers. -/
theorem runDisk_file (d : Disk) (ops : List FsOp) : (runDisk d (ops.map .file)).files = runOps d.files ops := by
  induction ops generalizing d with
  | nil => rfl
  | cons op ops ih =>
    rw [List.map_cons, show (DiskOp.file op :: ops.map .file) = [DiskOp.file op] ++ ops.map .file from rfl, runDisk_append, ih]
    rfl

theorem diskCrashed_file {d d' : Disk} {ops : List FsOp} (h : DiskCrashed d (ops.map .file) d') : Crashed d.files ops d'.files := by
  generalize hx : ops.map DiskOp.file = x at h
  cases h with
  | between before after =>
    obtain ⟨a, b, rfl, rfl, rfl⟩ := List.map_eq_append_iff.mp hx
    rw [runDisk_file]; exact .between _ _
  | within before after p bytes k =>
    obtain ⟨a, b, rfl, rfl, hb⟩ := List.map_eq_append_iff.mp hx
    obtain ⟨o, b, rfl, ho, rfl⟩ := List.map_eq_cons_iff.mp hb
    cases ho
    have : a.map DiskOp.file ++ [DiskOp.file (.append p (bytes.take k))] = (a ++ [FsOp.append p (bytes.take k)]).map .file := by simp
    rw [this, runDisk_file]; exact .within _ _ _ _ _

theorem S.bind_of_ok {α β : Type} {m : S α} {k : α → S β} {fl : Faults} {s s' : SState} {a : α} (h : m fl s = (.ok a, s')) : (m >>= k) fl s = k a fl s' := by
  show (match m fl s with | (.ok a, s') => k a fl s' | (.error e, s') => (.error e, s')) = _
  rw [h]

theorem S.bind_of_error {α β : Type} {m : S α} {k : α → S β} {fl : Faults} {s s' : SState} {e : Fail} (h : m fl s = (.error e, s')) : (m >>= k) fl s = (.error e, s') := by
  show (match m fl s with | (.ok a, s') => k a fl s' | (.error e, s') => (.error e, s')) = _
  rw [h]

theorem S.bind_congr_left {α β : Type} {m m' : S α} {k : α → S β} {fl : Faults} {s : SState} (h : m fl s = m' fl s) : (m >>= k) fl s = (m' >>= k) fl s := by
  show (match m fl s with | (.ok a, s') => k a fl s' | (.error e, s') => (.error e, s')) = (match m' fl s with | (.ok a, s') => k a fl s' | (.error e, s') => (.error e, s'))
  rw [h]

/-! ### Weakest preconditions -/

/-- Started on the disk `d`, the script passes only through disks (also the partial ones of a kill) that satisfy `I`, and ends with a result and a disk that satisfy `Q`. -/
def Does {α : Type} (fl : Faults) (I : Disk → Prop) (m : S α) (d : Disk) (Q : R α → Disk → Prop) : Prop :=
  ∀ s : SState, s.disk = d → ∃ ops, (m fl s).2.log = s.log ++ ops ∧ (m fl s).2.disk = runDisk d ops ∧ (∀ d', DiskCrashed d ops d' → I d') ∧
    Q (m fl s).1 (m fl s).2.disk

namespace Does
variable {α β : Type} {fl : Faults} {I : Disk → Prop} {d : Disk}

theorem still {m : S α} {r : R α} {Q : R α → Disk → Prop} (hm : ∀ s : SState, s.disk = d → (m fl s).1 = r ∧ (m fl s).2.log = s.log ∧ (m fl s).2.disk = d)
    (hI : I d) (hQ : Q r d) : Does fl I m d Q := by
  intro s hs
  obtain ⟨h1, h2, h3⟩ := hm s hs
  refine ⟨[], by simp [h2], h3, fun d' h => by rw [diskCrashed_nil h]; exact hI, ?_⟩
  rw [h1, h3]; exact hQ

theorem pure {a : α} {Q : R α → Disk → Prop} (hI : I d) (hQ : Q (.ok a) d) : Does fl I (Pure.pure a : S α) d Q :=
  still (fun _ hs => ⟨rfl, rfl, hs⟩) hI hQ

theorem fail {e : Fail} {Q : R α → Disk → Prop} (hI : I d) (hQ : Q (.error e) d) : Does fl I (S.fail e : S α) d Q :=
  still (fun _ hs => ⟨rfl, rfl, hs⟩) hI hQ

theorem forget {J : Disk → Prop} {m : S α} {Q : R α → Disk → Prop} (h : Does fl I m d Q) (hI : ∀ d, I d → J d) : Does fl J m d Q := by
  intro s hs
  obtain ⟨ops, h1, h2, h3, h4⟩ := h s hs
  exact ⟨ops, h1, h2, fun d' hd => hI d' (h3 d' hd), h4⟩

theorem mono {m : S α} {Q Q' : R α → Disk → Prop} (h : Does fl I m d Q) (hQ : ∀ r d, Q r d → Q' r d) : Does fl I m d Q' := by
  intro s hs
  obtain ⟨ops, h1, h2, h3, h4⟩ := h s hs
  exact ⟨ops, h1, h2, h3, hQ _ _ h4⟩

theorem bind {m : S α} {k : α → S β} {Q : R β → Disk → Prop}
    (h : Does fl I m d fun r d' => match r with | .ok a => Does fl I (k a) d' Q | .error e => Q (.error e) d') : Does fl I (m >>= k) d Q := by
  intro s hs
  obtain ⟨ops, h1, h2, h3, h4⟩ := h s hs
  have hb : (m >>= k) fl s = (match m fl s with | (.ok a, s') => k a fl s' | (.error e, s') => (.error e, s')) := rfl
  rcases hr : m fl s with ⟨r, s'⟩
  rw [hr] at h1 h2 h4 hb
  dsimp only at h1 h2 h4
  cases r with
  | ok a =>
    dsimp only at h4 hb
    obtain ⟨ops', g1, g2, g3, g4⟩ := h4 s' rfl
    rw [hb]
    refine ⟨ops ++ ops', by rw [g1, h1, List.append_assoc], by rw [g2, h2, runDisk_append], fun d' hd => ?_, g4⟩
    rcases diskCrashed_append hd with hd | hd
    · exact h3 d' hd
    · rw [← h2] at hd; exact g3 d' hd
  | error e => dsimp only at h4 hb; rw [hb]; exact ⟨ops, h1, h2, h3, h4⟩

/-- One call: the disk before and after it satisfies the invariant; it fails only if faults are allowed. -/
theorem call {op : DiskOp} {Q : R Unit → Disk → Prop} (hI : ∀ d', DiskCrashed d [op] d' → I d') (hok : Q (.ok ()) (op.apply d))
    (herr : ¬ NoFaults fl → ∀ d', I d' → Q (.error (.err .io)) d') : Does fl I (S.call op) d Q := by
  intro s hs
  unfold S.call
  cases hf : fl s.calls with
  | none =>
    dsimp only [SState.did]
    rw [hs]
    exact ⟨[op], rfl, rfl, hI, hok⟩
  | some k =>
    dsimp only [SState.did]
    rw [hs]
    have hn : ¬ NoFaults fl := fun h => by rw [h] at hf; cases hf
    have hd : ∀ d', DiskCrashed d (op.failed k) d' → I d' := by
      intro d' hd'
      have hstart : I d := hI d (DiskCrashed.between (d := d) [] [op])
      unfold DiskOp.failed at hd'
      split at hd'
      · rename_i p bytes
        rcases diskCrashed_single hd' with rfl | rfl | ⟨p', b', k', he, rfl⟩
        · exact hstart
        · exact hI _ (DiskCrashed.within (d := d) [] [] p bytes k)
        · cases he
          rw [List.take_take]
          exact hI _ (DiskCrashed.within (d := d) [] [] p bytes _)
      · rw [diskCrashed_nil hd']; exact hstart
    exact ⟨op.failed k, rfl, rfl, hd, herr hn _ (hd _ (diskCrashed_end _ _))⟩

theorem fileExists {p : Path} {Q : R Bool → Disk → Prop} (hI : I d) (hQ : Q (.ok (d.files p).isSome) d) : Does fl I (S.fileExists p) d Q :=
  still (fun s hs => ⟨by simp [S.fileExists, hs], rfl, hs⟩) hI hQ

theorem readFile {p : Path} {Q : R (List UInt8) → Disk → Prop} (hI : I d) (hok : ∀ bytes, d.files p = some bytes → Q (.ok bytes) d)
    (herr : (¬ NoFaults fl ∨ d.files p = none) → Q (.error (.err .io)) d) : Does fl I (S.readFile p) d Q := by
  intro s hs
  unfold S.readFile
  refine ⟨[], ?_, ?_, fun d' h => by rw [diskCrashed_nil h]; exact hI, ?_⟩
  · split <;> simp [SState.did]
  · split <;> simp [SState.did, hs]
  · rw [hs]
    cases hf : fl s.calls with
    | none =>
      cases hp : d.files p with
      | none => simp only [SState.did, runDisk_nil, hs]; exact herr (.inr hp)
      | some bytes => simp only [SState.did, runDisk_nil, hs]; exact hok _ hp
    | some k => simp only [SState.did, runDisk_nil, hs]; exact herr (.inl fun h => by rw [h] at hf; cases hf)

theorem createDir {p : Path} {Q : R Unit → Disk → Prop} (hI : ∀ d', DiskCrashed d [.mkdir p] d' → I d') (hok : d.dirs p = false → Q (.ok ()) (DiskOp.apply d (.mkdir p)))
    (herr : (¬ NoFaults fl ∨ d.dirs p = true) → ∀ d', I d' → Q (.error (.err .io)) d') : Does fl I (S.createDir p) d Q := by
  by_cases hd : d.dirs p = true
  · refine still (r := .error (.err .io)) (fun s hs => ?_) (hI d (DiskCrashed.between (d := d) [] _)) (herr (.inr hd) d (hI d (DiskCrashed.between (d := d) [] _)))
    unfold S.createDir
    rw [hs, if_pos hd]; exact ⟨rfl, rfl, hs⟩
  · have : Does fl I (S.call (.mkdir p)) d Q := call hI (hok (by simpa using hd)) (fun h => herr (.inl h))
    intro s hs
    unfold S.createDir
    rw [hs, if_neg hd]; exact this s hs

theorem renameOrPanic {a b : Path} {Q : R Unit → Disk → Prop} (hI : ∀ d', DiskCrashed d [.rename a b] d' → I d') (hok : Q (.ok ()) (DiskOp.apply d (.rename a b)))
    (herr : ¬ NoFaults fl → ∀ d', I d' → Q (.error .panic) d') : Does fl I (ScriptEnv.renameOrPanic a b) d Q := by
  have h : Does fl I (S.call (.rename a b)) d fun r d' => match r with | .ok _ => Q (.ok ()) d' | .error _ => Q (.error .panic) d' :=
    call hI hok herr
  intro s hs
  obtain ⟨ops, h1, h2, h3, h4⟩ := h s hs
  unfold ScriptEnv.renameOrPanic
  rcases hr : S.call (.rename a b) fl s with ⟨r, s'⟩
  rw [hr] at h1 h2 h4
  cases r with
  | ok _ => exact ⟨ops, h1, h2, h3, h4⟩
  | error _ => exact ⟨ops, h1, h2, h3, h4⟩

/-- A program of the compilers. -/
theorem ofW {m : W α} {Q : R α → Disk → Prop}
    (h : ∀ fl', (NoFaults fl → NoFaults fl') → (∀ d', DiskCrashed d ((m.trace fl').map .file) d' → I d') ∧
      ∀ d', d'.files = runOps d.files (m.trace fl') → Q (m.result fl') d') : Does fl I (S.ofW m) d Q := by
  intro s hs
  obtain ⟨h1, h2⟩ := h (fun n => fl (s.calls + n)) (fun hf n => hf _)
  refine ⟨(m.trace fun n => fl (s.calls + n)).map .file, rfl, by simp only [S.ofW, SState.did, hs]; rfl, h1, ?_⟩
  exact h2 _ (by simp only [S.ofW, SState.did, hs]; exact runDisk_file _ _)

/-- Directories are never removed. -/
theorem _root_.Verif.Model.runDisk_dirs (d : Disk) (ops : List DiskOp) (p : Path) (h : d.dirs p = true) : (runDisk d ops).dirs p = true := by
  induction ops generalizing d with
  | nil => exact h
  | cons op ops ih =>
    refine ih (op.apply d) ?_
    unfold DiskOp.apply
    split
    · rename_i op
      cases op <;> simp [FsOp.dirs, h]
    all_goals simp [h]

theorem withDirs {m : S α} {Q : R α → Disk → Prop} (h : Does fl I m d fun r d' => (∀ p, d.dirs p = true → d'.dirs p = true) → Q r d') : Does fl I m d Q := by
  intro s hs
  obtain ⟨ops, h1, h2, h3, h4⟩ := h s hs
  exact ⟨ops, h1, h2, h3, h4 fun p hp => by rw [h2]; exact runDisk_dirs _ _ _ hp⟩

end Does

/-! ### Paths -/

theorem join_eq (p : Path) : ∃ q, ∀ n, p.join n = q ++ n := by
  cases h : p.getLast? with
  | none => exact ⟨[], fun n => by simp [Path.join, h]⟩
  | some c =>
    by_cases hc : c = slash
    · exact ⟨p, fun n => by simp [Path.join, h, hc]⟩
    · exact ⟨p ++ [slash], fun n => by simp [Path.join, h, hc]⟩

theorem join_join (p : Path) {a : Path} (ha : a ≠ []) (hs : slash ∉ a) (n : Path) : (p.join a).join n = p.join (a ++ slash :: n) := by
  obtain ⟨q, hq⟩ := join_eq p
  rw [hq, hq]
  have hl : (q ++ a).getLast? = some (a.getLast ha) := by
    rw [List.getLast?_append, List.getLast?_eq_getLast_of_ne_nil ha]; rfl
  unfold Path.join
  rw [hl]
  have : a.getLast ha ≠ slash := fun h => hs (h ▸ List.getLast_mem ha)
  simp [this]

theorem slash_split {a b x y : Path} (ha : slash ∉ a) (hb : slash ∉ b) (h : a ++ slash :: x = b ++ slash :: y) : a = b ∧ x = y := by
  induction a generalizing b with
  | nil =>
    cases b with
    | nil => simpa using h
    | cons c b =>
      simp only [List.nil_append, List.cons_append, List.cons.injEq] at h
      exact absurd (h.1 ▸ List.mem_cons_self) hb
  | cons c a ih =>
    cases b with
    | nil =>
      simp only [List.nil_append, List.cons_append, List.cons.injEq] at h
      exact absurd (h.1 ▸ List.mem_cons_self) ha
    | cons c' b =>
      simp only [List.cons_append, List.cons.injEq] at h
      have := ih (fun hm => ha (List.mem_cons_of_mem _ hm)) (fun hm => hb (List.mem_cons_of_mem _ hm)) h.2
      exact ⟨by rw [h.1, this.1], this.2⟩

theorem names_ok (kind : DictionaryKind) : let c := ScriptCfg.ofKind kind
    c.input ≠ [] ∧ slash ∉ c.input ∧ c.output ≠ [] ∧ slash ∉ c.output ∧ slash ∉ c.archive ∧ slash ∉ c.archive ++ utf8 ".download".toList ∧ c.input ≠ c.output := by
  cases kind <;> decide +kernel

section
variable (env : ScriptEnv) (kind : DictionaryKind)

/-- Files of the source directory are entries below its name. -/
theorem input_join (name : Path) : (env.inputDir kind).join name = env.outDir.join ((ScriptCfg.ofKind kind).input ++ slash :: name) :=
  join_join _ (names_ok kind).1 (names_ok kind).2.1 name

theorem output_join (name : Path) : (env.outputDir kind).join name = env.outDir.join ((ScriptCfg.ofKind kind).output ++ slash :: name) :=
  join_join _ (names_ok kind).2.2.1 (names_ok kind).2.2.2.1 name

theorem archive_ne_input (name : Path) : env.archivePath kind ≠ (env.inputDir kind).join name := by
  rw [input_join]; intro h
  have := join_inj h
  exact (names_ok kind).2.2.2.2.1 (this ▸ by simp)

theorem tmp_ne_input (name : Path) : env.tmpPath kind ≠ (env.inputDir kind).join name := by
  rw [input_join]; intro h
  have := join_inj h
  exact (names_ok kind).2.2.2.2.2.1 (this ▸ by simp)

theorem archive_ne_output (name : Path) : env.archivePath kind ≠ (env.outputDir kind).join name := by
  rw [output_join]; intro h
  have := join_inj h
  exact (names_ok kind).2.2.2.2.1 (this ▸ by simp)

theorem input_ne_output (a b : Path) : (env.inputDir kind).join a ≠ (env.outputDir kind).join b := by
  rw [input_join, output_join]; intro h
  exact (names_ok kind).2.2.2.2.2.2 (slash_split (names_ok kind).2.1 (names_ok kind).2.2.2.1 (join_inj h)).1

theorem tmp_ne_output (name : Path) : env.tmpPath kind ≠ (env.outputDir kind).join name := by
  rw [output_join]; intro h
  have := join_inj h
  exact (names_ok kind).2.2.2.2.2.1 (this ▸ by simp)

theorem tmp_ne_archive : env.tmpPath kind ≠ env.archivePath kind := by
  intro h
  have := congrArg List.length (join_inj h)
  rw [List.length_append] at this
  have h2 : (utf8 ".download".toList).length = 9 := by decide +kernel
  omega

end

/-! ### The invariant -/

/-- The files the docs.rs branch makes. -/
def docsNames : List Path := [utf8 "char.def".toList, utf8 "dummy_dict.csv".toList, utf8 "unk.def".toList, utf8 "matrix.def".toList]

/-- The names that can appear in the source directory. -/
def Expected (env : ScriptEnv) (kind : DictionaryKind) (a : List UInt8) (docs : Bool) (name : Path) : Prop :=
  archived env kind a name ≠ none ∨ docs = true ∧ name ∈ docsNames

/-- The cached archive is complete (and there, if `had`), the source directory contains only files with expected names, and once there is an
archive, there is no partial download. -/
structure Inv (env : ScriptEnv) (kind : DictionaryKind) (a : List UInt8) (docs had : Bool) (d : Disk) : Prop where
  cached : d.files (env.archivePath kind) = some a ∨ had = false ∧ d.files (env.archivePath kind) = none
  named : ∀ name, d.files ((env.inputDir kind).join name) ≠ none → Expected env kind a docs name
  clean : d.files (env.archivePath kind) ≠ none → d.files (env.tmpPath kind) = none

variable {env : ScriptEnv} {kind : DictionaryKind} {a : List UInt8} {docs had : Bool}

/-- An archive that is there need not be there. -/
theorem Inv.forget {d : Disk} (h : Inv env kind a docs true d) : Inv env kind a docs had d := by
  refine ⟨.inl ?_, h.named, h.clean⟩
  rcases h.cached with h | ⟨h, -⟩
  · exact h
  · cases h

theorem Inv.have {d : Disk} (h : Inv env kind a docs had d) (hc : d.files (env.archivePath kind) = some a) : Inv env kind a docs true d := ⟨.inl hc, h.named, h.clean⟩

theorem Inv.empty : Inv env kind a docs false Disk.empty := ⟨.inr ⟨rfl, rfl⟩, fun _ h => absurd rfl h, fun h => absurd rfl h⟩

/-- Changes elsewhere do not matter. -/
theorem Inv.change {d d' : Disk} (h : Inv env kind a docs had d) (q : Path) (hd : ∀ p, p ≠ q → d'.files p = d.files p) (h1 : q ≠ env.archivePath kind)
    (h2 : ∀ name, q = (env.inputDir kind).join name → Expected env kind a docs name) (h3 : q = env.tmpPath kind → d.files (env.archivePath kind) = none) :
    Inv env kind a docs had d' := by
  refine ⟨by rw [hd _ (Ne.symm h1)]; exact h.cached, fun name hn => ?_, fun hc => ?_⟩
  · by_cases hq : q = (env.inputDir kind).join name
    · exact h2 name hq
    · exact h.named name (by rwa [hd _ (Ne.symm hq)] at hn)
  · rw [hd _ (Ne.symm h1)] at hc
    rw [hd _ fun he => hc (h3 he.symm)]
    exact h.clean hc

/-- The calls on one file. -/
def DiskOp.on (q : Path) : DiskOp → Prop
  | .file (.create p) => p = q
  | .file (.append p _) => p = q
  | .file (.mkdir _) => True
  | .mkdir _ => True
  | .remove p => p = q
  | .rename _ _ => False

theorem DiskOp.on_apply {q : Path} {op : DiskOp} (h : op.on q) (d : Disk) (p : Path) (hp : p ≠ q) : (op.apply d).files p = d.files p := by
  unfold DiskOp.on at h
  split at h
  · subst h; simp [DiskOp.apply, FsOp.apply, hp]
  · subst h; simp [DiskOp.apply, FsOp.apply, hp]
  · rfl
  · rfl
  · subst h; simp [DiskOp.apply, hp]
  · exact h.elim

theorem DiskOp.on_crash {q : Path} {op : DiskOp} (h : op.on q) {d d' : Disk} (hd : DiskCrashed d [op] d') (p : Path) (hp : p ≠ q) : d'.files p = d.files p := by
  rcases diskCrashed_single hd with rfl | rfl | ⟨p', b, k, rfl, rfl⟩
  · rfl
  · exact DiskOp.on_apply h _ _ hp
  · exact DiskOp.on_apply (op := .file (.append p' (b.take k))) h _ _ hp

/-- A path that may be changed (the temporary one only while there is no archive). -/
structure Harmless (env : ScriptEnv) (kind : DictionaryKind) (a : List UInt8) (docs : Bool) (q : Path) : Prop where
  archive : q ≠ env.archivePath kind
  input : ∀ name, q = (env.inputDir kind).join name → Expected env kind a docs name

theorem Harmless.tmp : Harmless env kind a docs (env.tmpPath kind) := ⟨tmp_ne_archive env kind, fun name h => absurd h (tmp_ne_input env kind name)⟩

theorem Harmless.output : Harmless env kind a docs ((env.outputDir kind).join []) :=
  ⟨Ne.symm (archive_ne_output env kind _), fun _ h => absurd h.symm (input_ne_output env kind _ _)⟩

/-- The temporary path is touched only while there is no archive. -/
def Free (env : ScriptEnv) (kind : DictionaryKind) (d : Disk) (q : Path) : Prop := q = env.tmpPath kind → d.files (env.archivePath kind) = none

theorem Free.inside {d : Disk} {name : Path} : Free env kind d ((env.inputDir kind).join name) := fun h => absurd h.symm (tmp_ne_input env kind name)

theorem Free.output {d : Disk} {name : Path} : Free env kind d ((env.outputDir kind).join name) := fun h => absurd h.symm (tmp_ne_output env kind name)

theorem Harmless.inside {name : Path} (h : Expected env kind a docs name) : Harmless env kind a docs ((env.inputDir kind).join name) :=
  ⟨Ne.symm (archive_ne_input env kind name), fun _ hn => join_inj hn ▸ h⟩

theorem Inv.step {d d' : Disk} (h : Inv env kind a docs had d) {q : Path} (hq : Harmless env kind a docs q) (hc : Free env kind d q) {op : DiskOp} (ho : op.on q) (hd : DiskCrashed d [op] d') : Inv env kind a docs had d' :=
  h.change q (DiskOp.on_crash ho hd) hq.archive hq.input hc

theorem Free.step {d d' : Disk} {q : Path} (hc : Free env kind d q) (hq : Harmless env kind a docs q) (hd : ∀ p, p ≠ q → d'.files p = d.files p) : Free env kind d' q :=
  fun h => by rw [hd _ (Ne.symm hq.archive)]; exact hc h

section
variable {fl : Faults} {d : Disk} {Q : R Unit → Disk → Prop}

/-- A call on a harmless path. -/
theorem does_on {op : DiskOp} {q : Path} (hI : Inv env kind a docs had d) (hq : Harmless env kind a docs q) (hc : Free env kind d q) (ho : op.on q) (hok : Inv env kind a docs had (op.apply d) → Q (.ok ()) (op.apply d))
    (herr : ¬ NoFaults fl → ∀ d', Inv env kind a docs had d' → Q (.error (.err .io)) d') : Does fl (Inv env kind a docs had) (S.call op) d Q :=
  .call (fun _ hd => hI.step hq hc ho hd) (hok (hI.step hq hc ho (diskCrashed_end d [op]))) herr

/-- Writing pieces at the end of a file. -/
theorem does_pieces {q : Path} (hq : Harmless env kind a docs q) (pieces : List (List UInt8)) : ∀ (d : Disk) (old : List UInt8), Inv env kind a docs had d → Free env kind d q → d.files q = some old →
    (∀ d', Inv env kind a docs had d' → d'.files q = some (old ++ pieces.flatten) → (∀ p, p ≠ q → d'.files p = d.files p) → Q (.ok ()) d') →
    (¬ NoFaults fl → ∀ d', Inv env kind a docs had d' → Q (.error (.err .io)) d') →
    Does fl (Inv env kind a docs had) (pieces.forM fun bytes => S.call (.file (.append q bytes))) d Q := by
  induction pieces with
  | nil => intro d old hI hc hd hok herr; exact .pure hI (hok d hI (by simpa using hd) fun _ _ => rfl)
  | cons b pieces ih =>
    intro d old hI hc hd hok herr
    show Does fl _ (S.call (.file (.append q b)) >>= fun _ => pieces.forM fun bytes => S.call (.file (.append q bytes))) d Q
    refine .bind (does_on hI hq hc rfl (fun hI' => ?_) herr)
    have hon := DiskOp.on_apply (q := q) (op := .file (.append q b)) rfl d
    refine ih _ (old ++ b) hI' (hc.step hq hon) (by simp [DiskOp.apply, FsOp.apply, hd]) (fun d' h1 h2 h3 => hok d' h1 (by simpa using h2) fun p hp => ?_) herr
    rw [h3 p hp, hon p hp]

/-- Creating a file with some contents. -/
theorem does_create {q : Path} (hq : Harmless env kind a docs q) (pieces : List (List UInt8)) (d : Disk) (hI : Inv env kind a docs had d) (hc : Free env kind d q)
    (hok : ∀ d', Inv env kind a docs had d' → d'.files q = some pieces.flatten → (∀ p, p ≠ q → d'.files p = d.files p) → Q (.ok ()) d')
    (herr : ¬ NoFaults fl → ∀ d', Inv env kind a docs had d' → Q (.error (.err .io)) d') :
    Does fl (Inv env kind a docs had) (S.call (.file (.create q)) >>= fun _ => pieces.forM fun bytes => S.call (.file (.append q bytes))) d Q := by
  refine .bind (does_on hI hq hc rfl (fun hI' => ?_) herr)
  have hon := DiskOp.on_apply (q := q) (op := .file (.create q)) rfl d
  refine does_pieces hq pieces _ [] hI' (hc.step hq hon) (by simp [DiskOp.apply, FsOp.apply]) (fun d' h1 h2 h3 => hok d' h1 (by simpa using h2) fun p hp => ?_) herr
  rw [h3 p hp, hon p hp]

/-- `createWith`. -/
theorem does_createWith {q : Path} (hq : Harmless env kind a docs q) (bytes : List UInt8) (d : Disk) (hI : Inv env kind a docs had d) (hc : Free env kind d q)
    (hok : ∀ d', Inv env kind a docs had d' → d'.files q = some bytes → (∀ p, p ≠ q → d'.files p = d.files p) → Q (.ok ()) d')
    (herr : ¬ NoFaults fl → ∀ d', Inv env kind a docs had d' → Q (.error (.err .io)) d') :
    Does fl (Inv env kind a docs had) (ScriptEnv.createWith q bytes) d Q := by
  unfold ScriptEnv.createWith
  refine .bind (does_on hI hq hc rfl (fun hI' => ?_) herr)
  have hon := DiskOp.on_apply (q := q) (op := .file (.create q)) rfl d
  refine does_on hI' hq (hc.step hq hon) rfl (fun hI'' => hok _ hI'' (by simp [DiskOp.apply, FsOp.apply]) fun p hp => ?_) herr
  rw [DiskOp.on_apply (q := q) (op := .file (.append q bytes)) rfl _ p hp, hon p hp]

/-! ### The parts of the script -/

/-- `fileIn`, starting with the file that is already there. -/
def fileFrom (entries : List ArchiveEntry) (found : Option (List UInt8)) (p : Path) : Option (List UInt8) :=
  entries.foldl (fun found e =>
    match e with
    | .file q pieces => if q = p then some pieces.flatten else found
    | .dir _ => found) found

theorem fileFrom_eq (entries : List ArchiveEntry) (found : Option (List UInt8)) (p : Path) : fileFrom entries found p = (fileIn entries p).or found := by
  induction entries generalizing found with
  | nil => rfl
  | cons e entries ih =>
    have h1 : ∀ x, fileFrom (e :: entries) x p = fileFrom entries (match e with | .file q pieces => if q = p then some pieces.flatten else x | .dir _ => x) p := fun x => rfl
    have h2 : fileIn (e :: entries) p = fileFrom (e :: entries) none p := rfl
    rw [h2, h1, h1, ih, ih]
    cases e with
    | dir q => cases fileIn entries p <;> rfl
    | file q pieces =>
      by_cases h : q = p
      · simp only [h, if_true]; cases fileIn entries p <;> rfl
      · simp only [h, if_false]; cases fileIn entries p <;> rfl

theorem fileIn_cons (e : ArchiveEntry) (entries : List ArchiveEntry) (p : Path) :
    fileIn (e :: entries) p = (fileIn entries p).or (match e with | .file q pieces => if q = p then some pieces.flatten else none | .dir _ => none) :=
  fileFrom_eq entries _ p

theorem fileIn_mem {entries : List ArchiveEntry} {p : Path} {pieces : List (List UInt8)} (h : ArchiveEntry.file p pieces ∈ entries) : fileIn entries p ≠ none := by
  induction entries with
  | nil => cases h
  | cons e entries ih =>
    rw [fileIn_cons]
    cases hf : fileIn entries p with
    | some c => simp
    | none =>
      rcases List.mem_cons.mp h with rfl | h
      · simp
      · exact absurd hf (ih h)

theorem does_entry (e : ArchiveEntry) (d : Disk) (hI : Inv env kind a docs had d) (he : ∀ p pieces, e = .file p pieces → Harmless env kind a docs (env.outDir.join p) ∧ ∀ d, Free env kind d (env.outDir.join p))
    (hok : ∀ d', Inv env kind a docs had d' → (∀ p, d'.files (env.outDir.join p) = (fileIn [e] p).or (d.files (env.outDir.join p))) → Q (.ok ()) d')
    (herr : ¬ NoFaults fl → ∀ d', Inv env kind a docs had d' → Q (.error (.err .io)) d') :
    Does fl (Inv env kind a docs had) (env.unpackEntry e) d Q := by
  cases e with
  | dir p =>
    refine does_on hI (Harmless.output (kind := kind)) .output trivial (fun hI' => hok _ hI' fun p => ?_) herr
    simp [fileIn, DiskOp.apply, FsOp.apply]
  | file p pieces =>
    obtain ⟨hq, hc⟩ := he p pieces rfl
    unfold ScriptEnv.unpackEntry
    refine .bind (.fileExists hI ?_)
    dsimp only
    have hend : ∀ d1, Inv env kind a docs had d1 → (∀ q, q ≠ env.outDir.join p → d1.files q = d.files q) →
        Does fl (Inv env kind a docs had) (S.call (.file (.create (env.outDir.join p))) >>= fun _ => pieces.forM fun bytes => S.call (.file (.append (env.outDir.join p) bytes))) d1 Q := by
      intro d1 h1 h2
      refine does_create hq pieces d1 h1 (hc d1) (fun d' h3 h4 h5 => hok d' h3 fun q => ?_) herr
      by_cases hp : q = p
      · subst hp; rw [h4]; simp [fileIn]
      · have : env.outDir.join q ≠ env.outDir.join p := fun h => hp (join_inj h)
        rw [h5 _ this, h2 _ this]
        simp [fileIn, Ne.symm hp]
    refine .bind ?_
    unfold ScriptEnv.removeIf
    split
    · refine does_on hI hq (hc d) rfl (fun hI' => ?_) herr
      exact hend _ hI' (DiskOp.on_apply (op := .remove _) rfl d)
    · exact .pure hI (hend d hI fun _ _ => rfl)

theorem does_entries (entries : List ArchiveEntry) : ∀ (d : Disk), Inv env kind a docs had d → (∀ p pieces, ArchiveEntry.file p pieces ∈ entries → Harmless env kind a docs (env.outDir.join p) ∧ ∀ d, Free env kind d (env.outDir.join p)) →
    (∀ d', Inv env kind a docs had d' → (∀ p, d'.files (env.outDir.join p) = (fileIn entries p).or (d.files (env.outDir.join p))) → Q (.ok ()) d') →
    (¬ NoFaults fl → ∀ d', Inv env kind a docs had d' → Q (.error (.err .io)) d') →
    Does fl (Inv env kind a docs had) (entries.forM env.unpackEntry) d Q := by
  induction entries with
  | nil => intro d hI _ hok _; exact .pure hI (hok d hI fun p => by simp [fileIn])
  | cons e entries ih =>
    intro d hI he hok herr
    show Does fl _ (env.unpackEntry e >>= fun _ => entries.forM env.unpackEntry) d Q
    refine .bind (does_entry e d hI (fun p pieces h => he p pieces (h ▸ List.mem_cons_self)) (fun d1 h1 h2 => ?_) herr)
    refine ih d1 h1 (fun p pieces h => he p pieces (List.mem_cons_of_mem _ h)) (fun d' h3 h4 => hok d' h3 fun p => ?_) herr
    rw [h4, h2, fileIn_cons e entries, Option.or_assoc]; rfl

theorem harmless_entry (ha : ArchiveOk env kind a) {p : Path} {pieces : List (List UInt8)} (h : ArchiveEntry.file p pieces ∈ (env.unpack a).1) :
    Harmless env kind a docs (env.outDir.join p) ∧ ∀ d, Free env kind d (env.outDir.join p) := by
  obtain ⟨name, rfl⟩ := ha.2 p pieces h
  rw [← input_join]
  exact ⟨.inside (.inl (fileIn_mem h)), fun _ => .inside⟩

theorem does_unpack (ha : ArchiveOk env kind a) (d : Disk) (hI : Inv env kind a docs had d)
    (hok : ∀ d', Inv env kind a docs had d' → (∀ name, d'.files ((env.inputDir kind).join name) = (archived env kind a name).or (d.files ((env.inputDir kind).join name))) → Q (.ok ()) d')
    (herr : ¬ NoFaults fl → ∀ d', Inv env kind a docs had d' → Q (.error (.err .io)) d') : Does fl (Inv env kind a docs had) (env.unpackAll a) d Q := by
  unfold ScriptEnv.unpackAll
  refine .bind (does_entries _ d hI (fun p pieces h => harmless_entry ha h) (fun d' h1 h2 => ?_) herr)
  rw [ha.1]
  exact .pure h1 (hok d' h1 fun name => by rw [input_join, h2]; rfl)

/-- Without a cached archive and without a complete answer, nothing can be done. -/
def NoArchive (env : ScriptEnv) (kind : DictionaryKind) (d : Disk) (r : Response) : Prop :=
  d.files (env.archivePath kind) = none ∧ ∀ pieces, r ≠ .body pieces true

theorem does_download (run : RunEnv) (hh : Honest a run) (d : Disk) (hI : Inv env kind a docs had d) (hn : d.files (env.archivePath kind) = none)
    (hok : ∀ d', Inv env kind a docs had d' → d'.files (env.archivePath kind) = some a → (∀ name, d'.files ((env.inputDir kind).join name) = d.files ((env.inputDir kind).join name)) →
      Q (.ok ()) d')
    (herr : ∀ e, (¬ NoFaults fl ∨ NoArchive env kind d run.response) → ∀ d', Inv env kind a docs had d' → Q (.error e) d') :
    Does fl (Inv env kind a docs had) (env.download kind run.response) d Q := by
  cases hr : run.response with
  | refused => exact .fail hI (herr _ (.inr ⟨hn, by rw [hr]; simp⟩) d hI)
  | body pieces ended =>
    unfold ScriptEnv.download
    have hhad : had = false := by
      rcases hI.cached with h | ⟨h, -⟩
      · rw [hn] at h; cases h
      · exact h
    have hend : ∀ d1, Inv env kind a docs had d1 → d1.files (env.tmpPath kind) = some pieces.flatten → (∀ p, p ≠ env.tmpPath kind → d1.files p = d.files p) →
        Does fl (Inv env kind a docs had) (if ended then ScriptEnv.renameOrPanic (env.tmpPath kind) (env.archivePath kind) else S.fail (.err .io)) d1 Q := by
      intro d1 h1 h2 h3
      cases ended with
      | false => exact .fail h1 (herr _ (.inr ⟨hn, fun p h => by rw [hr] at h; simp at h⟩) d1 h1)
      | true =>
        rw [hh pieces hr] at h2
        have hI' : Inv env kind a docs had (DiskOp.apply d1 (.rename (env.tmpPath kind) (env.archivePath kind))) := by
          refine ⟨.inl (by simp [DiskOp.apply, h2]), fun name hname => h1.named name ?_, fun _ => by simp [DiskOp.apply, tmp_ne_archive env kind]⟩
          simpa [DiskOp.apply, Ne.symm (archive_ne_input env kind name), Ne.symm (tmp_ne_input env kind name)] using hname
        rw [if_pos rfl]
        refine .renameOrPanic (fun d' hd => ?_) (hok _ hI' (by simp [DiskOp.apply, h2]) fun name => ?_) (fun h => herr _ (.inl h))
        · rcases diskCrashed_single hd with rfl | rfl | ⟨_, _, _, h, _⟩
          · exact h1
          · exact hI'
          · cases h
        · simp only [DiskOp.apply, Ne.symm (archive_ne_input env kind name), Ne.symm (tmp_ne_input env kind name), if_false]
          exact h3 _ (Ne.symm (tmp_ne_input env kind name))
    have hc : Free env kind d (env.tmpPath kind) := fun _ => hn
    refine .bind (does_on hI .tmp hc rfl (fun hI' => ?_) fun h => herr _ (.inl h))
    refine .bind (does_pieces .tmp pieces _ [] hI' (hc.step (a := a) (docs := docs) .tmp (DiskOp.on_apply (op := .file (.create _)) rfl d)) (by simp [DiskOp.apply, FsOp.apply]) (fun d1 h1 h2 h3 => ?_) fun h => herr _ (.inl h))
    refine hend d1 h1 (by simpa using h2) fun p hp => ?_
    rw [h3 p hp, DiskOp.on_apply (q := env.tmpPath kind) (op := .file (.create _)) rfl d p hp]

theorem does_real (ha : ArchiveOk env kind a) (run : RunEnv) (hh : Honest a run) (d : Disk) (hI : Inv env kind a docs had d)
    (hok : ∀ d', Inv env kind a docs true d' → (∀ name, d'.files ((env.inputDir kind).join name) = (archived env kind a name).or (d.files ((env.inputDir kind).join name))) → Q (.ok ()) d')
    (herr : ∀ e, (¬ NoFaults fl ∨ NoArchive env kind d run.response) → ∀ d', Inv env kind a docs had d' → Q (.error e) d') :
    Does fl (Inv env kind a docs had) (env.realSources kind run.response) d Q := by
  unfold ScriptEnv.realSources
  refine .bind (.fileExists hI ?_)
  dsimp only
  have hend : ∀ d1, Inv env kind a docs had d1 → d1.files (env.archivePath kind) = some a → (∀ name, d1.files ((env.inputDir kind).join name) = d.files ((env.inputDir kind).join name)) →
      Does fl (Inv env kind a docs had) (S.readFile (env.archivePath kind) >>= env.unpackAll) d1 Q := by
    intro d1 h1 h2 h3
    refine .bind (.readFile h1 (fun bytes hb => ?_) fun h => ?_)
    · rw [h2] at hb; cases hb
      exact (does_unpack ha d1 (h1.have h2) (fun d' h4 h5 => hok d' h4 fun name => by rw [h5, h3]) fun h d' hd => herr _ (.inl h) d' hd.forget).forget fun _ h => h.forget
    · rcases h with h | h
      · exact herr _ (.inl h) d1 h1
      · rw [h2] at h; cases h
  cases hn : d.files (env.archivePath kind) with
  | some b =>
    have : b = a := by
      rcases hI.cached with h | ⟨-, h⟩
      · rw [hn] at h; exact Option.some.inj h
      · rw [hn] at h; cases h
    subst this
    exact hend d hI hn fun _ => rfl
  | none => exact .bind (does_download run hh d hI hn (fun d1 h1 h2 h3 => hend d1 h1 h2 h3) herr)

theorem expected_docs {name : Path} (h : name ∈ docsNames) : Expected env kind a true name := .inr ⟨rfl, h⟩

/-- The files of the docs.rs branch. -/
def docsFile (env : ScriptEnv) (kind : DictionaryKind) (name : Path) : Option (List UInt8) :=
  if name = utf8 "char.def".toList then some (utf8 "DEFAULT 0 1 0\n".toList)
  else if name = utf8 "dummy_dict.csv".toList then some (env.encode (ScriptCfg.ofKind kind).encoding (ScriptCfg.ofKind kind).dummy)
  else if name = utf8 "unk.def".toList then some []
  else if name = utf8 "matrix.def".toList then some (utf8 "0 1 0\n".toList)
  else none

theorem does_docs (d : Disk) (hI : Inv env kind a true had d)
    (hok : ∀ d', Inv env kind a true had d' → (∀ name, d'.files ((env.inputDir kind).join name) = (docsFile env kind name).or (d.files ((env.inputDir kind).join name))) →
      d'.dirs (env.inputDir kind) = true → Q (.ok ()) d')
    (herr : (¬ NoFaults fl ∨ d.dirs (env.inputDir kind) = true) → ∀ d', Inv env kind a true had d' → Q (.error (.err .io)) d') :
    Does fl (Inv env kind a true had) (env.docsSources kind) d Q := by
  unfold ScriptEnv.docsSources
  dsimp only
  have hx : ∀ n ∈ docsNames, Harmless env kind a true ((env.inputDir kind).join n) := fun n hn => .inside (expected_docs hn)
  have hm : ∀ d', DiskCrashed d [.mkdir (env.inputDir kind)] d' → Inv env kind a true had d' :=
    fun d' hd => hI.step (Harmless.output (kind := kind)) .output (op := .mkdir _) trivial hd
  refine .bind (.createDir hm (fun _ => ?_) herr)
  refine .withDirs ?_
  refine .bind (does_createWith (hx _ (by simp [docsNames])) _ _ (hm _ (diskCrashed_end _ _)) .inside (fun d1 i1 e1 o1 => ?_) fun h d' i _ => herr (.inl h) d' i)
  refine .bind (does_createWith (hx _ (by simp [docsNames])) _ _ i1 .inside (fun d2 i2 e2 o2 => ?_) fun h d' i _ => herr (.inl h) d' i)
  refine .bind (does_on i2 (hx (utf8 "unk.def".toList) (by simp [docsNames])) .inside rfl (fun i3 => ?_) fun h d' i _ => herr (.inl h) d' i)
  refine does_createWith (hx _ (by simp [docsNames])) _ _ i3 .inside (fun d4 i4 e4 o4 hdirs => hok d4 i4 (fun name => ?_) (hdirs _ (by simp [DiskOp.apply]))) fun h d' i _ => herr (.inl h) d' i
  have n1 : utf8 "dummy_dict.csv".toList ≠ utf8 "char.def".toList := by decide +kernel
  have n2 : utf8 "unk.def".toList ≠ utf8 "char.def".toList := by decide +kernel
  have n3 : utf8 "unk.def".toList ≠ utf8 "dummy_dict.csv".toList := by decide +kernel
  have n4 : utf8 "matrix.def".toList ≠ utf8 "char.def".toList := by decide +kernel
  have n5 : utf8 "matrix.def".toList ≠ utf8 "dummy_dict.csv".toList := by decide +kernel
  have n6 : utf8 "matrix.def".toList ≠ utf8 "unk.def".toList := by decide +kernel
  have hne : ∀ {x y : Path}, x ≠ y → (env.inputDir kind).join x ≠ (env.inputDir kind).join y := fun h e => h (join_inj e)
  unfold docsFile
  by_cases c4 : name = utf8 "matrix.def".toList
  · subst c4; rw [if_neg n4, if_neg n5, if_neg n6, if_pos rfl]; exact e4
  rw [o4 _ (hne c4)]
  by_cases c3 : name = utf8 "unk.def".toList
  · subst c3; rw [if_neg n2, if_neg n3, if_pos rfl]; simp [DiskOp.apply, FsOp.apply]
  rw [DiskOp.on_apply (q := (env.inputDir kind).join (utf8 "unk.def".toList)) (op := .file (.create _)) rfl _ _ (hne c3)]
  by_cases c2 : name = utf8 "dummy_dict.csv".toList
  · subst c2; rw [if_neg n1, if_pos rfl]; exact e2
  rw [o2 _ (hne c2)]
  by_cases c1 : name = utf8 "char.def".toList
  · subst c1; rw [if_pos rfl]; exact e1
  rw [o1 _ (hne c1), if_neg c1, if_neg c2, if_neg c3, if_neg c4]
  rfl

/-- The compilers. -/
theorem does_build (unreadable : Path → Bool) (d : Disk) (hI : Inv env kind a docs had d)
    (h : ∀ fl' d', (NoFaults fl → NoFaults fl') → Inv env kind a docs had d' → (∀ name, d'.files ((env.inputDir kind).join name) = d.files ((env.inputDir kind).join name)) →
      (∀ p, d.dirs p = true → d'.dirs p = true) →
      d'.files = runOps d.files ((env.build.buildDictionary kind (env.sourcesOn kind unreadable d.files) (env.outputDir kind)).trace fl') →
      Q ((env.build.buildDictionary kind (env.sourcesOn kind unreadable d.files) (env.outputDir kind)).result fl') d') :
    Does fl (Inv env kind a docs had) (env.readSources kind unreadable >>= fun src => S.ofW (env.build.buildDictionary kind src (env.outputDir kind))) d Q := by
  refine .bind (.still (r := .ok (env.sourcesOn kind unreadable d.files)) (fun s hs => ⟨by rw [← hs]; rfl, rfl, hs⟩) hI ?_)
  dsimp only
  have key : ∀ d' : Disk, (∀ q, (∀ n, inDir (env.outputDir kind) n ≠ q) → d'.files q = d.files q) → Inv env kind a docs had d' := by
    intro d' hd
    refine ⟨?_, fun name hn => hI.named name ?_, fun hc => ?_⟩
    · rw [hd _ fun n => Ne.symm (archive_ne_output env kind _)]; exact hI.cached
    · rwa [hd _ fun n => Ne.symm (input_ne_output env kind _ _)] at hn
    · rw [hd _ fun n => Ne.symm (archive_ne_output env kind _)] at hc
      rw [hd _ fun n => Ne.symm (tmp_ne_output env kind _)]
      exact hI.clean hc
  refine .withDirs (.ofW fun fl' hf => ⟨fun d' hd => key d' fun q hq => ?_, fun d' hd hdirs => h fl' d' hf (key d' fun q hq => ?_) (fun name => ?_) hdirs hd⟩)
  · exact (build_other (fun n _ => hq n) d.files).1 _ (diskCrashed_file hd)
  · rw [hd]; exact (build_other (fun n _ => hq n) d.files).2
  · rw [hd]; exact (build_other (fun n _ => Ne.symm (input_ne_output env kind _ _)) d.files).2

/-- Every run keeps the invariant, wherever it is killed. -/
theorem does_main (ha : ArchiveOk env kind a) (run : RunEnv) (hh : Honest a run) (hd : run.docs = true → docs = true) (d : Disk) (hI : Inv env kind a docs had d) :
    Does fl (Inv env kind a docs had) (env.main kind run) d fun _ _ => True := by
  unfold ScriptEnv.main
  cases hr : run.docs with
  | false => exact .bind (does_real ha run hh d hI (fun d' h1 _ => does_build _ d' h1.forget fun _ _ _ _ _ _ _ => trivial) fun _ _ _ _ => trivial)
  | true =>
    cases hd hr
    exact .bind (does_docs d hI (fun d' h1 _ _ => does_build _ d' h1 fun _ _ _ _ _ _ _ => trivial) fun _ _ _ => trivial)

/-- What the compilers find if the source directory is that of the archive. -/
def sourcesOf (env : ScriptEnv) (unreadable : Path → Bool) (file : Fs) : SourceDir :=
  let read (name : Path) : Option (List UInt8) := if unreadable name then none else file name
  ⟨read (utf8 "char.def".toList), read (utf8 "unk.def".toList), read (utf8 "matrix.def".toList), (env.glob file).map read⟩

theorem sourcesOn_eq (unreadable : Path → Bool) {fs : Fs} {file : Fs} (h : ∀ name, fs ((env.inputDir kind).join name) = file name) :
    env.sourcesOn kind unreadable fs = sourcesOf env unreadable file := by
  unfold ScriptEnv.sourcesOn sourcesOf
  simp only [h]

/-- What a run leaves behind. -/
def Built (env : ScriptEnv) (kind : DictionaryKind) (src : SourceDir) (fl : Faults) (r : R Unit) (d : Disk) : Prop :=
  ∃ fl' fs, (NoFaults fl → NoFaults fl') ∧ r = (env.build.buildDictionary kind src (env.outputDir kind)).result fl' ∧
    d.files = runOps fs ((env.build.buildDictionary kind src (env.outputDir kind)).trace fl')

/-- A normal run compiles the sources of the archive, whatever earlier runs left behind. -/
theorem does_main_real (ha : ArchiveOk env kind a) (run : RunEnv) (hh : Honest a run) (hr : run.docs = false) (d : Disk) (hI : Inv env kind a docs had d) :
    Does fl (Inv env kind a docs had) (env.main kind run) d fun r d' =>
      (∃ e, r = .error e ∧ (¬ NoFaults fl ∨ NoArchive env kind d run.response)) ∨
      Built env kind (sourcesOf env run.unreadable fun name => (archived env kind a name).or (d.files ((env.inputDir kind).join name))) fl r d' ∧
        Inv env kind a docs true d' := by
  unfold ScriptEnv.main
  rw [hr]
  refine .bind (does_real ha run hh d hI (fun d' h1 h2 => (does_build _ d' h1 fun fl' d'' hf hi _ _ hd => ?_).forget fun _ h => h.forget) fun e h _ _ => .inl ⟨e, rfl, h⟩)
  rw [sourcesOn_eq run.unreadable h2] at hd ⊢
  exact .inr ⟨⟨fl', _, hf, rfl, hd⟩, hi⟩

/-- A run for docs.rs compiles the dummy sources. -/
theorem does_main_docs (run : RunEnv) (hr : run.docs = true) (d : Disk) (hI : Inv env kind a true had d) :
    Does fl (Inv env kind a true had) (env.main kind run) d fun r d' =>
      (r = .error (.err .io) ∧ (¬ NoFaults fl ∨ d.dirs (env.inputDir kind) = true)) ∨
      Built env kind (sourcesOf env run.unreadable fun name => (docsFile env kind name).or (d.files ((env.inputDir kind).join name))) fl r d' ∧
        (∀ name, d'.files ((env.inputDir kind).join name) = (docsFile env kind name).or (d.files ((env.inputDir kind).join name))) ∧ d'.dirs (env.inputDir kind) = true := by
  unfold ScriptEnv.main
  rw [hr]
  refine .bind (does_docs d hI (fun d' h1 h2 h3 => does_build _ d' h1 fun fl' d'' hf _ h4 h5 hd => ?_) fun h _ _ => .inl ⟨rfl, h⟩)
  rw [sourcesOn_eq run.unreadable h2] at hd ⊢
  exact .inr ⟨⟨fl', _, hf, rfl, hd⟩, fun name => by rw [h4, h2], h5 _ h3⟩

end

/-- From `Does` to runs. -/
theorem Does.run {α : Type} {fl : Faults} {I : Disk → Prop} {m : S α} {d : Disk} {Q : R α → Disk → Prop} (h : Does fl I m d Q) :
    m.after fl d = runDisk d (m.trace fl d) ∧ (∀ d', DiskCrashed d (m.trace fl d) d' → I d') ∧ Q (m.result fl d) (m.after fl d) := by
  obtain ⟨ops, h1, h2, h3, h4⟩ := h (.start d) rfl
  have : m.trace fl d = ops := by unfold S.trace; rw [h1]; rfl
  rw [this]
  exact ⟨h2, h3, h4⟩

/-! ### Sources -/

theorem sourcesOf_all (unreadable : Path → Bool) (file : Fs) (h : ∀ p, unreadable p = false) :
    sourcesOf env unreadable file = ⟨file (utf8 "char.def".toList), file (utf8 "unk.def".toList), file (utf8 "matrix.def".toList), (env.glob file).map file⟩ := by
  unfold sourcesOf
  simp [h]

/-- If the sources compile, then no file was unreadable. -/
theorem sourcesOf_read {unreadable : Path → Bool} {file : Fs} {c : CompiledParts} (h : compile env.build kind (sourcesOf env unreadable file) = .ok c) :
    sourcesOf env unreadable file = ⟨file (utf8 "char.def".toList), file (utf8 "unk.def".toList), file (utf8 "matrix.def".toList), (env.glob file).map file⟩ := by
  obtain ⟨⟨b1, -, h1, -⟩, ⟨b2, -, h2, -⟩, ⟨rows, ⟨files, h3, -⟩, -⟩, ⟨b4, -, -, -, -, h4, -⟩⟩ := buildable_of_compile h
  have key : ∀ name x, (if unreadable name then none else file name) = some x → (if unreadable name then none else file name) = file name := by
    intro name x hx
    split at hx
    · cases hx
    · rename_i hn; rw [if_neg hn]
  unfold sourcesOf at h1 h2 h3 h4 ⊢
  dsimp only at h1 h2 h3 h4 ⊢
  rw [key _ _ h1, key _ _ h2, key _ _ h4]
  congr 1
  refine List.map_congr_left fun name hname => ?_
  have : (if unreadable name then none else file name) ∈ files.map (fun f => some f.1) := by
    rw [← h3]; exact List.mem_map_of_mem hname
  obtain ⟨f, -, hf⟩ := List.mem_map.mp this
  exact key _ _ hf.symm

theorem Inv.unpacked {d : Disk} (h : Inv env kind a false had d) (name : Path) :
    (archived env kind a name).or (d.files ((env.inputDir kind).join name)) = archived env kind a name := by
  cases hn : archived env kind a name with
  | some x => rfl
  | none =>
    cases hd : d.files ((env.inputDir kind).join name) with
    | none => rfl
    | some x => rcases h.named name (by rw [hd]; simp) with h | ⟨h, -⟩
                · exact absurd hn h
                · cases h

theorem Disks.inv (ha : ArchiveOk env kind a) {d : Disk} (h : Disks env kind a docs d) : Inv env kind a docs false d := by
  induction h with
  | fresh => exact .empty
  | run r faults _ hh hd hc ih => exact (does_main ha r hh hd _ ih).run.2.1 _ hc

end Verif.Model
