import Verif.Spec.BuildDir
import Verif.Proofs.Monad
/-! Program logic for the programs that write files: what happens to one file. -/
namespace Verif.Model
open Verif.Spec

theorem runOps_append (fs : Fs) (a b : List FsOp) : runOps fs (a ++ b) = runOps (runOps fs a) b := by
  simp [runOps, List.foldl_append]

@[simp] theorem runOps_nil (fs : Fs) : runOps fs [] = fs := rfl
@[simp] theorem runOps_single (fs : Fs) (op : FsOp) : runOps fs [op] = op.apply fs := rfl

theorem crashed_start (fs : Fs) (ops : List FsOp) : Crashed fs ops fs := Crashed.between (fs := fs) [] ops

theorem crashed_end (fs : Fs) (ops : List FsOp) : Crashed fs ops (runOps fs ops) := by
  have := Crashed.between (fs := fs) ops []
  rwa [List.append_nil] at this

theorem crashed_append {fs fs' : Fs} {a b : List FsOp} (h : Crashed fs (a ++ b) fs') : Crashed fs a fs' ∨ Crashed (runOps fs a) b fs' := by
  generalize hx : a ++ b = x at h
  cases h with
  | between before after =>
    rcases List.append_eq_append_iff.mp hx with ⟨m, h1, h2⟩ | ⟨m, h1, h2⟩
    · right; rw [h1, runOps_append, h2]; exact .between _ _
    · left; rw [h1]; exact .between _ _
  | within before after p bytes k =>
    rcases List.append_eq_append_iff.mp hx with ⟨m, h1, h2⟩ | ⟨m, h1, h2⟩
    · right; rw [h1, List.append_assoc, runOps_append, h2]; exact .within _ _ _ _ _
    · cases m with
      | nil =>
        right
        simp only [List.append_nil] at h1
        simp only [List.nil_append] at h2
        rw [h1, ← h2, runOps_append]; exact Crashed.within (fs := runOps fs before) [] after p bytes k
      | cons o m =>
        left
        simp only [List.cons_append, List.cons.injEq] at h2
        obtain ⟨rfl, -⟩ := h2
        rw [h1]; exact .within _ _ _ _ _

theorem crashed_append_left {fs fs' : Fs} {a : List FsOp} (b : List FsOp) (h : Crashed fs a fs') : Crashed fs (a ++ b) fs' := by
  cases h with
  | between before after => rw [List.append_assoc]; exact .between _ _
  | within before after p bytes k => rw [List.append_assoc, List.cons_append]; exact .within _ _ _ _ _

theorem crashed_append_right {fs fs' : Fs} {a b : List FsOp} (h : Crashed (runOps fs a) b fs') : Crashed fs (a ++ b) fs' := by
  cases h with
  | between before after => rw [← runOps_append, ← List.append_assoc]; exact .between _ _
  | within before after p bytes k => rw [← runOps_append, ← List.append_assoc, ← List.append_assoc]; exact .within _ _ _ _ _

theorem crashed_single {fs fs' : Fs} {op : FsOp} (h : Crashed fs [op] fs') :
    fs' = fs ∨ fs' = op.apply fs ∨ ∃ p bytes k, op = .append p bytes ∧ fs' = (FsOp.append p (bytes.take k)).apply fs := by
  generalize hx : [op] = x at h
  cases h with
  | between before after =>
    rcases before with _ | ⟨o, before⟩
    · exact .inl rfl
    · simp only [List.cons_append, List.cons.injEq, List.nil_eq, List.append_eq_nil_iff] at hx
      obtain ⟨rfl, rfl, rfl⟩ := hx
      exact .inr (.inl rfl)
  | within before after p bytes k =>
    rcases before with _ | ⟨o, before⟩
    · simp only [List.nil_append, List.cons.injEq, List.nil_eq] at hx
      exact .inr (.inr ⟨p, bytes, k, hx.1, rfl⟩)
    · simp at hx

theorem crashed_nil {fs fs' : Fs} (h : Crashed fs [] fs') : fs' = fs := by
  generalize hx : ([] : List FsOp) = x at h
  cases h with
  | between before after =>
    simp only [List.nil_eq, List.append_eq_nil_iff] at hx
    rw [hx.1]; rfl
  | within before after p bytes k => simp at hx

/-! ### Calls that do not touch a file -/

/-- The call does not change the file `q`. -/
def FsOp.Avoids (q : Path) : FsOp → Prop
  | .mkdir _ => True
  | .create p => p ≠ q
  | .append p _ => p ≠ q

theorem FsOp.Avoids.apply {q : Path} {op : FsOp} (h : op.Avoids q) (fs : Fs) : op.apply fs q = fs q := by
  cases op with
  | mkdir p => rfl
  | create p => simp only [FsOp.apply]; rw [if_neg (fun e => h e.symm)]
  | append p bs => simp only [FsOp.apply]; rw [if_neg (fun e => h e.symm)]

theorem runOps_avoids {q : Path} {ops : List FsOp} (h : ∀ op ∈ ops, op.Avoids q) (fs : Fs) : runOps fs ops q = fs q := by
  induction ops generalizing fs with
  | nil => rfl
  | cons op ops ih =>
    show runOps (op.apply fs) ops q = _
    rw [ih (fun o ho => h o (List.mem_cons_of_mem _ ho)), (h op (by simp)).apply]

theorem crashed_avoids {q : Path} {ops : List FsOp} (h : ∀ op ∈ ops, op.Avoids q) {fs fs' : Fs} (hc : Crashed fs ops fs') : fs' q = fs q := by
  cases hc with
  | between before after => exact runOps_avoids (fun o ho => h o (by simp [ho])) fs
  | within before after p bytes k =>
    refine runOps_avoids (fun o ho => ?_) fs
    simp only [List.mem_append, List.mem_singleton] at ho
    rcases ho with ho | rfl
    · exact h o (by simp [ho])
    · have := h (.append p bytes) (by simp)
      exact this

/-- The program does not touch the file `q` nor a buffer for it. -/
def Keeps {α : Type} (q : Path) (m : W α) : Prop :=
  ∀ fl s, ∃ new, (m fl s).2.ops = s.ops ++ new ∧ (∀ op ∈ new, op.Avoids q) ∧ (m fl s).2.buf q = s.buf q

theorem W.bind_def {α β : Type} (m : W α) (k : α → W β) (fl : Faults) (s : WState) :
    (m >>= k) fl s = match m fl s with
      | (.ok a, s') => k a fl s'
      | (.error e, s') => (.error e, s') := rfl

theorem W.pure_def {α : Type} (a : α) (fl : Faults) (s : WState) : (pure a : W α) fl s = (.ok a, s) := rfl

namespace Keeps

theorem pure {α : Type} {q : Path} (a : α) : Keeps q (pure a : W α) := fun _ s => ⟨[], by simp [W.pure_def], by simp, rfl⟩

theorem liftR {α : Type} {q : Path} (r : R α) : Keeps q (Model.liftR r) := fun _ s => ⟨[], by simp [Model.liftR], by simp, rfl⟩

theorem bind {α β : Type} {q : Path} {m : W α} {k : α → W β} (hm : Keeps q m) (hk : ∀ a, Keeps q (k a)) : Keeps q (m >>= k) := by
  intro fl s
  obtain ⟨n1, h1, h2, h3⟩ := hm fl s
  rw [W.bind_def]
  rcases hr : m fl s with ⟨r, s'⟩
  rw [hr] at h1 h3
  cases r with
  | error e => exact ⟨n1, h1, h2, h3⟩
  | ok a =>
    obtain ⟨n2, h4, h5, h6⟩ := hk a fl s'
    refine ⟨n1 ++ n2, ?_, ?_, ?_⟩
    · dsimp only at h1 h4 ⊢; rw [h4, h1, List.append_assoc]
    · intro op ho
      rcases List.mem_append.mp ho with ho | ho
      · exact h2 op ho
      · exact h5 op ho
    · dsimp only at h3 h6 ⊢; rw [h6, h3]

theorem mapResult {α : Type} {q : Path} {m : W α} (f : R α → R α) (hm : Keeps q m) : Keeps q (m.mapResult f) := fun fl s => hm fl s

theorem step {α : Type} {q : Path} {m : W α} (cfg : BuildCfg) (hm : Keeps q m) : Keeps q (cfg.step m) := by
  unfold BuildCfg.step
  split
  · exact hm.mapResult _
  · exact hm

theorem osCall {q : Path} {op : FsOp} (h : op.Avoids q) : Keeps q (osCall op) := by
  intro fl s
  unfold Model.osCall
  split
  · exact ⟨[op], rfl, by simpa using h, rfl⟩
  · exact ⟨[], by simp, by simp, rfl⟩

theorem osWrite {p q : Path} (h : p ≠ q) (bs b1 : List UInt8) (b2 : Nat → List UInt8) : Keeps q (osWrite p bs b1 b2) := by
  intro fl s
  unfold Model.osWrite
  split
  · exact ⟨[.append p bs], rfl, by simpa [FsOp.Avoids] using h, by simp [setBuf, Ne.symm h]⟩
  · next k _ => exact ⟨[.append p (bs.take k)], rfl, by simpa [FsOp.Avoids] using h, by simp [setBuf, Ne.symm h]⟩

theorem flushBuf {p q : Path} (h : p ≠ q) : Keeps q (flushBuf p) := by
  intro fl s
  unfold Model.flushBuf
  split
  · exact ⟨[], by simp, by simp, rfl⟩
  · exact Keeps.osWrite h _ _ _ fl s

theorem writeCold {p q : Path} (h : p ≠ q) (d : List UInt8) : Keeps q (writeCold p d) := by
  intro fl s
  unfold Model.writeCold
  split
  · exact Keeps.osWrite h _ _ _ fl s
  · exact ⟨[], by simp, by simp, by simp [setBuf, Ne.symm h]⟩

theorem writeAll {p q : Path} (h : p ≠ q) (d : List UInt8) : Keeps q (writeAll p d) := by
  intro fl s
  unfold Model.writeAll
  split
  · exact ⟨[], by simp, by simp, by simp [setBuf, Ne.symm h]⟩
  · split
    · exact ((Keeps.flushBuf h).bind fun _ => Keeps.writeCold h d) fl s
    · exact Keeps.writeCold h d fl s

theorem forM {α : Type} {q : Path} {f : α → W Unit} (xs : List α) (h : ∀ x, Keeps q (f x)) : Keeps q (xs.forM f) := by
  induction xs with
  | nil => exact Keeps.pure ()
  | cons x xs ih => exact (h x).bind fun _ => ih

theorem writeData {p q : Path} (h : p ≠ q) (env : BuildEnv) (d : List UInt8) : Keeps q (env.writeData p d) :=
  Keeps.forM _ fun _ => Keeps.writeAll h _

theorem withWriter {α : Type} {p q : Path} {body : W α} (h : p ≠ q) (hb : Keeps q body) : Keeps q (withWriter p body) := by
  intro fl s
  unfold Model.withWriter
  obtain ⟨n0, h1, h2, h3⟩ := Keeps.osCall (op := .create p) (q := q) h fl s
  rcases hr : Model.osCall (.create p) fl s with ⟨r, s'⟩
  rw [hr] at h1 h3
  cases r with
  | error e => exact ⟨n0, h1, h2, h3⟩
  | ok a =>
    dsimp only at h1 h3 ⊢
    obtain ⟨n1, h4, h5, h6⟩ := hb fl { s' with buf := setBuf s'.buf p [] }
    obtain ⟨n2, h7, h8, h9⟩ := Keeps.flushBuf h fl (body fl { s' with buf := setBuf s'.buf p [] }).2
    refine ⟨n0 ++ n1 ++ n2, ?_, ?_, ?_⟩
    · unfold dropWriter; rw [h7, h4, h1]; simp
    · intro op ho
      simp only [List.mem_append] at ho
      rcases ho with (ho | ho) | ho
      · exact h2 op ho
      · exact h5 op ho
      · exact h8 op ho
    · unfold dropWriter; rw [h9, h6]; simp [setBuf, Ne.symm h, h3]

end Keeps

/-! ### What happens to one file -/

/-- Started with `P` true of the content of `q` and of the bytes buffered for it, the program leaves `C` true of the content at any crash, and `Q` at the end. -/
def Tri {α : Type} (fl : Faults) (q : Path) (C : Option (List UInt8) → Prop) (P : Option (List UInt8) → List UInt8 → Prop) (m : W α)
    (Q : R α → Option (List UInt8) → List UInt8 → Prop) : Prop :=
  ∀ (fs : Fs) (s : WState), P (runOps fs s.ops q) (s.buf q) → ∃ new, (m fl s).2.ops = s.ops ++ new ∧
    (∀ fs', Crashed (runOps fs s.ops) new fs' → C (fs' q)) ∧ Q (m fl s).1 (runOps fs (m fl s).2.ops q) ((m fl s).2.buf q)

namespace Tri
variable {α β : Type} {fl : Faults} {q : Path} {C : Option (List UInt8) → Prop} {P : Option (List UInt8) → List UInt8 → Prop}

theorem keeps {m : W α} (h : Keeps q m) (hP : ∀ c b, P c b → C c) : Tri fl q C P m fun _ => P := by
  intro fs s hs
  obtain ⟨new, h1, h2, h3⟩ := h fl s
  refine ⟨new, h1, fun fs' hc => ?_, ?_⟩
  · rw [crashed_avoids h2 hc]; exact hP _ _ hs
  · rw [h1, runOps_append, runOps_avoids h2, h3]; exact hs

theorem conseq {m : W α} {P' : Option (List UInt8) → List UInt8 → Prop} {Q Q' : R α → Option (List UInt8) → List UInt8 → Prop}
    (h : Tri fl q C P m Q) (hP : ∀ c b, P' c b → P c b) (hQ : ∀ r c b, Q r c b → Q' r c b) : Tri fl q C P' m Q' := by
  intro fs s hs
  obtain ⟨new, h1, h2, h3⟩ := h fs s (hP _ _ hs)
  exact ⟨new, h1, h2, hQ _ _ _ h3⟩

/-- Sequencing: `E` describes the file after an error. -/
theorem bind {m : W α} {k : α → W β} {M : α → Option (List UInt8) → List UInt8 → Prop} {Q : R β → Option (List UInt8) → List UInt8 → Prop}
    (hm : Tri fl q C P m fun r c b => match r with | .ok a => M a c b | .error e => Q (.error e) c b)
    (hk : ∀ a, Tri fl q C (M a) (k a) Q) : Tri fl q C P (m >>= k) Q := by
  intro fs s hs
  obtain ⟨n1, h1, h2, h3⟩ := hm fs s hs
  rw [W.bind_def]
  rcases hr : m fl s with ⟨r, s'⟩
  rw [hr] at h1 h3
  cases r with
  | error e => exact ⟨n1, h1, h2, h3⟩
  | ok a =>
    dsimp only at h1 h3 ⊢
    obtain ⟨n2, h4, h5, h6⟩ := hk a fs s' h3
    refine ⟨n1 ++ n2, by rw [h4, h1, List.append_assoc], fun fs' hc => ?_, h6⟩
    rcases crashed_append hc with hc | hc
    · exact h2 _ hc
    · refine h5 _ ?_
      rwa [h1, runOps_append]

theorem liftR {r : R α} {Q : R α → Option (List UInt8) → List UInt8 → Prop} (hP : ∀ c b, P c b → C c) (hQ : ∀ c b, P c b → Q r c b) :
    Tri fl q C P (Model.liftR r) Q := by
  intro fs s hs
  refine ⟨[], by simp [Model.liftR], fun fs' hc => ?_, hQ _ _ hs⟩
  rw [crashed_nil hc]; exact hP _ _ hs

theorem pure {a : α} {Q : R α → Option (List UInt8) → List UInt8 → Prop} (hP : ∀ c b, P c b → C c) (hQ : ∀ c b, P c b → Q (.ok a) c b) :
    Tri fl q C P (Pure.pure a : W α) Q := Tri.liftR hP hQ

theorem mapResult {m : W α} {f : R α → R α} {Q : R α → Option (List UInt8) → List UInt8 → Prop} (h : Tri fl q C P m fun r => Q (f r)) :
    Tri fl q C P (m.mapResult f) Q := fun fs s hs => h fs s hs

end Tri

/-! ### Writing one file -/

/-- The content is the old one or the beginning of the complete new file. -/
def Torn (old : Option (List UInt8)) (full : List UInt8) (c : Option (List UInt8)) : Prop := c = old ∨ ∃ x, c = some x ∧ x <+: full

/-- The file is open, and `x` has been handed to its writer. -/
def Open (x : List UInt8) (c : Option (List UInt8)) (b : List UInt8) : Prop := ∃ y, c = some y ∧ y ++ b = x

/-- The file is open and a write to it or another file has failed. -/
def Broken (full : List UInt8) (c : Option (List UInt8)) (b : List UInt8) : Prop := ∃ y, c = some y ∧ y ++ b <+: full

theorem Open.broken {x full : List UInt8} {c : Option (List UInt8)} {b : List UInt8} (h : Open x c b) (hx : x <+: full) : Broken full c b := by
  obtain ⟨y, h1, h2⟩ := h
  exact ⟨y, h1, h2 ▸ hx⟩

theorem Broken.torn {full : List UInt8} {old c : Option (List UInt8)} {b : List UInt8} (h : Broken full c b) : Torn old full c := by
  obtain ⟨y, h1, h2⟩ := h
  exact .inr ⟨y, h1, (List.prefix_append y b).trans h2⟩

theorem append_apply_self (fs : Fs) (q : Path) (bs y : List UInt8) (h : fs q = some y) : (FsOp.append q bs).apply fs q = some (y ++ bs) := by
  simp [FsOp.apply, h]

/-- A write to the file itself. -/
theorem osWrite_self {fl : Faults} {q : Path} {old : Option (List UInt8)} {full : List UInt8} (fs : Fs) (s : WState) (y bs okBuf : List UInt8)
    (errBuf : Nat → List UInt8) (hy : runOps fs s.ops q = some y) (hx : y ++ bs <+: full) :
    ∃ new, (osWrite q bs okBuf errBuf fl s).2.ops = s.ops ++ new ∧
      (∀ fs', Crashed (runOps fs s.ops) new fs' → Torn old full (fs' q)) ∧
      (((osWrite q bs okBuf errBuf fl s).1 = .ok () ∧ runOps fs (osWrite q bs okBuf errBuf fl s).2.ops q = some (y ++ bs) ∧
          (osWrite q bs okBuf errBuf fl s).2.buf q = okBuf) ∨
        (¬ NoFaults fl ∧ ∃ k, (osWrite q bs okBuf errBuf fl s).1 = .error (.err .io) ∧
          runOps fs (osWrite q bs okBuf errBuf fl s).2.ops q = some (y ++ bs.take k) ∧ (osWrite q bs okBuf errBuf fl s).2.buf q = errBuf k)) := by
  have hcrash : ∀ k fs', Crashed (runOps fs s.ops) [.append q (bs.take k)] fs' → Torn old full (fs' q) := by
    intro k fs' hc
    have hp : ∀ j, y ++ bs.take j <+: full := fun j => ((List.prefix_append_right_inj y).mpr (List.take_prefix j bs)).trans hx
    rcases crashed_single hc with rfl | rfl | ⟨p, b2, j, he, rfl⟩
    · exact .inr ⟨y, hy, (List.prefix_append y bs).trans hx⟩
    · exact .inr ⟨_, append_apply_self _ _ _ _ hy, hp k⟩
    · obtain ⟨rfl, rfl⟩ := FsOp.append.inj he
      refine .inr ⟨_, append_apply_self _ _ _ _ hy, ?_⟩
      rw [List.take_take]; exact hp _
  unfold osWrite
  cases hf : fl s.calls with
  | none =>
    refine ⟨[.append q bs], rfl, ?_, .inl ⟨rfl, ?_, by simp [setBuf]⟩⟩
    · have := hcrash bs.length
      rwa [List.take_length] at this
    · dsimp only
      rw [runOps_append, runOps_single, append_apply_self _ _ _ _ hy]
  | some k =>
    refine ⟨[.append q (bs.take k)], rfl, hcrash k, .inr ⟨fun h => by rw [h] at hf; simp at hf, k, rfl, ?_, by simp [setBuf]⟩⟩
    dsimp only
    rw [runOps_append, runOps_single, append_apply_self _ _ _ _ hy]

section
variable {fl : Faults} {q : Path} {old : Option (List UInt8)} {full : List UInt8}

/-- Flushing the file's own writer. -/
theorem flushBuf_self {x : List UInt8} (hx : x <+: full) : Tri fl q (Torn old full) (Open x) (flushBuf q) fun r c b =>
    (r = .ok () ∧ c = some x ∧ b = []) ∨ (¬ NoFaults fl ∧ r = .error (.err .io) ∧ Broken full c b) := by
  intro fs s hs
  obtain ⟨y, h1, h2⟩ := hs
  unfold flushBuf
  split
  · next h =>
    refine ⟨[], by simp, fun fs' hc => ?_, .inl ⟨rfl, ?_, h⟩⟩
    · rw [crashed_nil hc]; exact .inr ⟨y, h1, (List.prefix_append y (s.buf q)).trans (h2 ▸ hx)⟩
    · dsimp only; rw [h1, ← h2, h, List.append_nil]
  · obtain ⟨new, h3, h4, h5⟩ := osWrite_self (fl := fl) (old := old) (full := full) fs s y (s.buf q) [] (fun k => (s.buf q).drop k) h1 (h2 ▸ hx)
    refine ⟨new, h3, h4, ?_⟩
    rcases h5 with ⟨e1, e2, e3⟩ | ⟨e0, k, e1, e2, e3⟩
    · exact .inl ⟨e1, by rw [e2, h2], e3⟩
    · refine .inr ⟨e0, e1, _, e2, ?_⟩
      rw [e3, List.append_assoc, List.take_append_drop, h2]; exact hx

/-- `write_all_cold` after the flush. -/
theorem writeCold_self {x d : List UInt8} (hx : x ++ d <+: full) :
    Tri fl q (Torn old full) (fun c b => Open x c b ∧ (bufCapacity ≤ d.length → b = [])) (writeCold q d) fun r c b =>
      (r = .ok () ∧ Open (x ++ d) c b) ∨ (¬ NoFaults fl ∧ r = .error (.err .io) ∧ Broken full c b) := by
  intro fs s hs
  obtain ⟨⟨y, h1, h2⟩, hb⟩ := hs
  unfold writeCold
  split
  · next h =>
    have hb := hb h
    rw [hb, List.append_nil] at h2
    subst h2
    obtain ⟨new, h3, h4, h5⟩ := osWrite_self (fl := fl) (old := old) (full := full) fs s y d (s.buf q) (fun _ => s.buf q) h1 hx
    refine ⟨new, h3, h4, ?_⟩
    rcases h5 with ⟨e1, e2, e3⟩ | ⟨e0, k, e1, e2, e3⟩
    · exact .inl ⟨e1, _, e2, by rw [e3, hb, List.append_nil]⟩
    · refine .inr ⟨e0, e1, _, e2, ?_⟩
      rw [e3, hb, List.append_nil]
      exact ((List.prefix_append_right_inj y).mpr (List.take_prefix k d)).trans hx
  · refine ⟨[], by simp, fun fs' hc => ?_, .inl ⟨rfl, y, h1, by simp [setBuf, ← h2]⟩⟩
    rw [crashed_nil hc]
    refine .inr ⟨y, h1, ?_⟩
    exact ((List.prefix_append y (s.buf q)).trans (h2 ▸ List.prefix_append x d)).trans hx

/-- Handing data to the file's own writer. -/
theorem writeAll_self {x d : List UInt8} (hx : x ++ d <+: full) :
    Tri fl q (Torn old full) (Open x) (writeAll q d) fun r c b =>
      (r = .ok () ∧ Open (x ++ d) c b) ∨ (¬ NoFaults fl ∧ r = .error (.err .io) ∧ Broken full c b) := by
  have hx0 : x <+: full := (List.prefix_append x d).trans hx
  intro fs s hs
  have hs' := hs
  obtain ⟨y, h1, h2⟩ := hs'
  unfold writeAll
  split
  · refine ⟨[], by simp, fun fs' hc => ?_, .inl ⟨rfl, y, h1, by simp [setBuf, ← h2]⟩⟩
    rw [crashed_nil hc]
    exact (hs.broken hx0).torn
  · split
    · have key : Tri fl q (Torn old full) (Open x) (do flushBuf q; writeCold q d) fun r c b =>
          (r = .ok () ∧ Open (x ++ d) c b) ∨ (¬ NoFaults fl ∧ r = .error (.err .io) ∧ Broken full c b) := by
        refine Tri.bind (M := fun _ c b => c = some x ∧ b = []) ((flushBuf_self hx0).conseq (fun _ _ h => h) ?_) fun _ => (writeCold_self hx).conseq ?_ (fun _ _ _ h => h)
        · rintro r c b (⟨rfl, h⟩ | ⟨h0, rfl, h⟩)
          · exact h
          · exact .inr ⟨h0, rfl, h⟩
        · rintro c b ⟨rfl, rfl⟩
          exact ⟨⟨x, rfl, by simp⟩, fun _ => rfl⟩
      exact key fs s hs
    · next hl hg =>
      refine writeCold_self hx fs s ⟨hs, fun hc => ?_⟩
      have : (s.buf q).length = 0 := by unfold bufCapacity at *; omega
      exact List.length_eq_zero_iff.mp this

theorem forM_writeAll_self {x : List UInt8} (ds : List (List UInt8)) (hx : x ++ ds.flatten <+: full) :
    Tri fl q (Torn old full) (Open x) (ds.forM (writeAll q)) fun r c b =>
      (r = .ok () ∧ Open (x ++ ds.flatten) c b) ∨ (¬ NoFaults fl ∧ r = .error (.err .io) ∧ Broken full c b) := by
  induction ds generalizing x with
  | nil =>
    refine Tri.pure (fun c b h => (h.broken ?_).torn) (fun c b h => .inl ⟨rfl, by simpa using h⟩)
    simpa using hx
  | cons d ds ih =>
    simp only [List.flatten_cons, ← List.append_assoc] at hx ⊢
    refine Tri.bind (M := fun _ => Open (x ++ d)) ((writeAll_self ((List.prefix_append _ _).trans hx)).conseq (fun _ _ h => h) ?_) fun _ => ih hx
    rintro r c b (⟨rfl, h⟩ | ⟨h0, rfl, h⟩)
    · exact h
    · exact .inr ⟨h0, rfl, h⟩

/-- Opening the file, using it and dropping its writer. -/
theorem withWriter_self {α : Type} {body : W α} {Q : R α → Option (List UInt8) → List UInt8 → Prop} {Q' : R α → Option (List UInt8) → Prop}
    (hb : Tri fl q (Torn old full) (fun c b => c = some [] ∧ b = []) body Q)
    (hopen : ∀ r c b, Q r c b → Broken full c b)
    (hdone : ∀ r c b c' , Q r c b → (∃ y z, c = some y ∧ c' = some z ∧ z <+: y ++ b ∧ (b = [] ∨ NoFaults fl → z = y ++ b)) → Q' r c')
    (herr : ¬ NoFaults fl → Q' (.error (.err .io)) old) :
    Tri fl q (Torn old full) (fun c _ => c = old) (withWriter q body) fun r c _ => Q' r c := by
  intro fs s hs
  unfold withWriter osCall
  cases hf : fl s.calls with
  | some k =>
    refine ⟨[], by simp, fun fs' hc => ?_, ?_⟩
    · rw [crashed_nil hc]; exact .inl hs
    · dsimp only
      rw [hs]; exact herr fun h => by rw [h] at hf; simp at hf
  | none =>
    dsimp only
    generalize hs1 : (⟨s.ops ++ [.create q], s.calls + 1, setBuf s.buf q []⟩ : WState) = s1
    have hops : s1.ops = s.ops ++ [.create q] := by rw [← hs1]
    have hc1 : runOps fs s1.ops q = some [] := by rw [hops, runOps_append]; simp [FsOp.apply]
    have hb1 : s1.buf q = [] := by rw [← hs1]; simp [setBuf]
    obtain ⟨n1, h1, h2, h3⟩ := hb fs s1 ⟨hc1, hb1⟩
    have hbr := hopen _ _ _ h3
    obtain ⟨y, hy1, hy2⟩ := hbr
    generalize hr : body fl s1 = r at *
    obtain ⟨n2, h4, h5, h6⟩ := flushBuf_self (fl := fl) (old := old) (List.prefix_refl (y ++ r.2.buf q)) fs r.2 ⟨y, hy1, rfl⟩
    refine ⟨[.create q] ++ n1 ++ n2, ?_, ?_, ?_⟩
    · show (flushBuf q fl r.2).2.ops = _
      rw [h4, h1, hops]; simp
    · intro fs' hc
      rcases crashed_append hc with hc | hc
      · rcases crashed_append hc with hc | hc
        · rcases crashed_single hc with rfl | rfl | ⟨p, b2, j, he, -⟩
          · exact .inl hs
          · exact .inr ⟨[], by simp [FsOp.apply], List.nil_prefix⟩
          · simp at he
        · refine h2 _ ?_
          rwa [hops, runOps_append]
      · have := h5 fs' (by rwa [h1, hops, List.append_assoc, runOps_append])
        rcases this with h | ⟨z, h, hz⟩
        · exact .inl h
        · exact .inr ⟨z, h, hz.trans hy2⟩
    · refine hdone _ _ _ _ h3 ?_
      rcases h6 with ⟨-, e1, -⟩ | ⟨e0, e1, z, e2, e3⟩
      · exact ⟨y, _, hy1, e1, List.prefix_refl _, fun _ => rfl⟩
      · refine ⟨y, z, hy1, e2, (List.prefix_append z _).trans e3, fun h => ?_⟩
        rcases h with h | h
        · unfold flushBuf at e1
          rw [if_pos h] at e1
          simp at e1
        · exact absurd h e0

/-- Another file is opened, used and closed. -/
theorem Tri.withOther {α : Type} {p : Path} {C : Option (List UInt8) → Prop} {P : Option (List UInt8) → List UInt8 → Prop} {body : W α}
    {Q : R α → Option (List UInt8) → List UInt8 → Prop} (h : p ≠ q) (hP : ∀ c b, P c b → C c) (hb : Tri fl q C P body Q)
    (herr : ∀ c b, P c b → ¬ NoFaults fl → Q (.error (.err .io)) c b) : Tri fl q C P (withWriter p body) Q := by
  intro fs s hs
  unfold withWriter osCall
  cases hf : fl s.calls with
  | some k =>
    refine ⟨[], by simp, fun fs' hc => ?_, ?_⟩
    · rw [crashed_nil hc]; exact hP _ _ hs
    · exact herr _ _ hs fun h => by rw [h] at hf; simp at hf
  | none =>
    dsimp only
    generalize hs1 : (⟨s.ops ++ [.create p], s.calls + 1, setBuf s.buf p []⟩ : WState) = s1
    have hops : s1.ops = s.ops ++ [.create p] := by rw [← hs1]
    have hav : ∀ op ∈ [FsOp.create p], op.Avoids q := by simpa [FsOp.Avoids] using h
    have hc1 : runOps fs s1.ops q = runOps fs s.ops q := by rw [hops, runOps_append, runOps_avoids hav]
    have hb1 : s1.buf q = s.buf q := by rw [← hs1]; simp [setBuf, Ne.symm h]
    obtain ⟨n1, h1, h2, h3⟩ := hb fs s1 (by rw [hc1, hb1]; exact hs)
    obtain ⟨n2, h4, h5, h6⟩ := Keeps.flushBuf h fl (body fl s1).2
    refine ⟨[.create p] ++ n1 ++ n2, ?_, ?_, ?_⟩
    · show (flushBuf p fl (body fl s1).2).2.ops = _
      rw [h4, h1, hops]; simp
    · intro fs' hc
      rcases crashed_append hc with hc | hc
      · rcases crashed_append hc with hc | hc
        · rw [crashed_avoids hav hc]; exact hP _ _ hs
        · exact h2 _ (by rwa [hops, runOps_append])
      · rw [crashed_avoids h5 hc, runOps_append]
        refine h2 _ ?_
        have := crashed_end (runOps fs s1.ops) n1
        rwa [hops, runOps_append] at this ⊢
    · show Q (body fl s1).1 (runOps fs (flushBuf p fl (body fl s1).2).2.ops q) ((flushBuf p fl (body fl s1).2).2.buf q)
      rw [h4, runOps_append, runOps_avoids h5, h6]
      exact h3

/-- A step that must not fail leaves the file alone. -/
theorem Tri.liftOk {α β : Type} {C : Option (List UInt8) → Prop} {P : Option (List UInt8) → List UInt8 → Prop} {r : R α} {a : α}
    {Q : R β → Option (List UInt8) → List UInt8 → Prop} {k : α → W β} (hr : r = .ok a) (hP : ∀ c b, P c b → C c) (hk : Tri fl q C P (k a) Q) :
    Tri fl q C P (Model.liftR r >>= k) Q := by
  refine Tri.bind (M := fun a' c b => a' = a ∧ P c b) (Tri.liftR hP fun c b h => ?_) fun a' => ?_
  · rw [hr]; exact ⟨rfl, h⟩
  · intro fs s hs
    obtain ⟨rfl, hs⟩ := hs
    exact hk fs s hs

/-- A step that leaves the file alone. -/
theorem Tri.bindKeep {α β : Type} {C : Option (List UInt8) → Prop} {P : Option (List UInt8) → List UInt8 → Prop} {m : W α}
    {Q : R β → Option (List UInt8) → List UInt8 → Prop} {k : α → W β} (hm : Keeps q m) (hP : ∀ c b, P c b → C c)
    (herr : ∀ e c b, P c b → Q (.error e) c b) (hk : ∀ a, Tri fl q C P (k a) Q) : Tri fl q C P (m >>= k) Q := by
  refine Tri.bind (M := fun _ => P) ((Tri.keeps hm hP).conseq (fun _ _ h => h) fun r c b h => ?_) hk
  cases r with
  | ok a => exact h
  | error e => exact herr e c b h

/-- The state of a file inside the scope of its writer: everything was handed to the writer (and flushed), or something failed. -/
def InScope {α : Type} (full : List UInt8) (flushed : Bool) (r : R α) (c : Option (List UInt8)) (b : List UInt8) : Prop :=
  ((∃ a, r = .ok a) ∧ Open full c b ∧ (flushed = true → b = [])) ∨ ((∃ e, r = .error e) ∧ Broken full c b)

/-- The state of a file afterwards: complete if the program succeeded, otherwise torn. -/
def Final {α : Type} (old : Option (List UInt8)) (full : List UInt8) (r : R α) (c : Option (List UInt8)) : Prop :=
  ((∃ a, r = .ok a) ∧ c = some full) ∨ ((∃ e, r = .error e) ∧ Torn old full c)

/-- The state of a file that was not flushed before its writer was dropped: it may be torn even if the program succeeded. -/
def FinalLoose {α : Type} (fl : Faults) (old : Option (List UInt8)) (full : List UInt8) (r : R α) (c : Option (List UInt8)) : Prop :=
  ((∃ a, r = .ok a) ∧ ∃ x, c = some x ∧ x <+: full ∧ (NoFaults fl → x = full)) ∨ ((∃ e, r = .error e) ∧ Torn old full c)

theorem Open.nil {c : Option (List UInt8)} {b : List UInt8} (h : c = some [] ∧ b = []) : Open [] c b := ⟨[], h.1, by simp [h.2]⟩

theorem withWriter_flushed {α : Type} {body : W α} (hb : Tri fl q (Torn old full) (Open []) body (InScope full true)) :
    Tri fl q (Torn old full) (fun c _ => c = old) (withWriter q body) fun r c _ => Final old full r c := by
  refine withWriter_self (hb.conseq (fun _ _ => Open.nil) fun _ _ _ h => h) ?_ ?_ ?_
  · rintro r c b (⟨-, h, -⟩ | ⟨-, h⟩)
    · exact h.broken (List.prefix_refl _)
    · exact h
  · rintro r c b c' h ⟨y, z, rfl, rfl, hz, hz'⟩
    rcases h with ⟨h, ⟨y', e1, e2⟩, hb⟩ | ⟨h, y', e1, e2⟩
    · obtain rfl := Option.some.inj e1
      exact .inl ⟨h, by rw [hz' (.inl (hb rfl)), e2]⟩
    · obtain rfl := Option.some.inj e1
      exact .inr ⟨h, .inr ⟨z, rfl, hz.trans e2⟩⟩
  · intro _; exact .inr ⟨⟨_, rfl⟩, .inl rfl⟩

theorem withWriter_unflushed {α : Type} {body : W α} (hb : Tri fl q (Torn old full) (Open []) body (InScope full false)) :
    Tri fl q (Torn old full) (fun c _ => c = old) (withWriter q body) fun r c _ => FinalLoose fl old full r c := by
  refine withWriter_self (hb.conseq (fun _ _ => Open.nil) fun _ _ _ h => h) ?_ ?_ ?_
  · rintro r c b (⟨-, h, -⟩ | ⟨-, h⟩)
    · exact h.broken (List.prefix_refl _)
    · exact h
  · rintro r c b c' h ⟨y, z, rfl, rfl, hz, hz'⟩
    rcases h with ⟨h, ⟨y', e1, e2⟩, hb⟩ | ⟨h, y', e1, e2⟩
    · obtain rfl := Option.some.inj e1
      exact .inl ⟨h, z, rfl, e2 ▸ hz, fun hf => by rw [hz' (.inr hf), e2]⟩
    · obtain rfl := Option.some.inj e1
      exact .inr ⟨h, .inr ⟨z, rfl, hz.trans e2⟩⟩
  · intro _; exact .inr ⟨⟨_, rfl⟩, .inl rfl⟩

theorem open_torn {x : List UInt8} (hx : x <+: full) : ∀ c b, Open x c b → Torn old full c := fun _ _ h => (h.broken hx).torn

/-- Handing all data to the file's own writer. -/
theorem Tri.bindWrite {α : Type} {env : BuildEnv} (hp : PiecesOk env) {data : List UInt8} {k : Unit → W α} {flushed : Bool}
    (hfull : full = compressWrite env.feature env.flate data .deflate)
    (hk : ∀ u, Tri fl q (Torn old full) (Open full) (k u) (InScope full flushed)) :
    Tri fl q (Torn old full) (Open []) (env.writeData q data >>= k) (InScope full flushed) := by
  subst hfull
  have h := forM_writeAll_self (fl := fl) (q := q) (old := old) (x := []) (full := compressWrite env.feature env.flate data .deflate)
    (env.pieces (compressWrite env.feature env.flate data .deflate)) (by rw [hp]; exact List.prefix_refl _)
  rw [hp, List.nil_append] at h
  refine Tri.bind (M := fun _ => Open _) (h.conseq (fun _ _ h => h) ?_) hk
  rintro r c b (⟨rfl, h⟩ | ⟨-, rfl, h⟩)
  · exact h
  · exact .inr ⟨⟨_, rfl⟩, h⟩

/-- Flushing the file's own writer. -/
theorem Tri.bindFlush {α : Type} {k : Unit → W α}
    (hk : ∀ u, Tri fl q (Torn old full) (fun c b => Open full c b ∧ b = []) (k u) (InScope full true)) :
    Tri fl q (Torn old full) (Open full) (flushBuf q >>= k) (InScope full true) := by
  refine Tri.bind (M := fun _ c b => Open full c b ∧ b = []) ((flushBuf_self (List.prefix_refl _)).conseq (fun _ _ h => h) ?_) hk
  rintro r c b (⟨rfl, rfl, rfl⟩ | ⟨-, rfl, h⟩)
  · exact ⟨⟨full, rfl, by simp⟩, rfl⟩
  · exact .inr ⟨⟨_, rfl⟩, h⟩

theorem flushLast : Tri fl q (Torn old full) (Open full) (flushBuf q) (InScope full true) := by
  refine (flushBuf_self (List.prefix_refl _)).conseq (fun _ _ h => h) ?_
  rintro r c b (⟨rfl, rfl, rfl⟩ | ⟨-, rfl, h⟩)
  · exact .inl ⟨⟨_, rfl⟩, ⟨full, rfl, by simp⟩, fun _ => rfl⟩
  · exact .inr ⟨⟨_, rfl⟩, h⟩

/-- A file that is opened, written, flushed and closed. -/
theorem writeFile {env : BuildEnv} (hp : PiecesOk env) {data : List UInt8} (hfull : full = compressWrite env.feature env.flate data .deflate) :
    Tri fl q (Torn old full) (fun c _ => c = old) (withWriter q (do env.writeData q data; flushBuf q)) fun r c _ => Final old full r c :=
  withWriter_flushed (Tri.bindWrite hp hfull fun _ => flushLast)

end

end Verif.Model
