import Verif.Proofs.BuildRun
/-! Which failing calls a build does not report. -/
namespace Verif.Model
open Verif.Spec

/-- `I` is preserved by changes of the buffers and by successful calls other than writes to `q`. -/
structure Lasting (fl : Faults) (q : Path → Prop) (I : WState → Prop) : Prop where
  buf : ∀ s b, I s → I { s with buf := b }
  call : ∀ s op b, I s → fl s.calls = none → (∀ p, q p → ¬ WritesTo p op) → I ⟨s.ops ++ [op], s.calls + 1, b⟩

/-- If the program succeeds then it preserves `I`. -/
def Ho {α : Type} (fl : Faults) (I : WState → Prop) (m : W α) : Prop := ∀ s a, I s → (m fl s).1 = .ok a → I (m fl s).2

/-- If the program succeeds then nothing is buffered for `p`. -/
def Empt {α : Type} (p : Path) (m : W α) : Prop := ∀ fl s a, (m fl s).1 = .ok a → (m fl s).2.buf p = []

namespace Empt
variable {α β : Type} {p : Path}

theorem last {m : W α} {k : α → W β} (hk : ∀ a, Empt p (k a)) : Empt p (m >>= k) := by
  intro fl s b h
  rw [W.bind_def] at h ⊢
  rcases hr : m fl s with ⟨r, s'⟩
  rw [hr] at h
  cases r with
  | error e => cases h
  | ok a => exact hk a fl s' b h

theorem first {m : W α} {k : α → W β} (hm : Empt p m) (hk : ∀ a, Keeps p (k a)) : Empt p (m >>= k) := by
  intro fl s b h
  rw [W.bind_def] at h ⊢
  rcases hr : m fl s with ⟨r, s'⟩
  rw [hr] at h
  cases r with
  | error e => cases h
  | ok a =>
    obtain ⟨_, _, _, h3⟩ := hk a fl s'
    have := hm fl s a (by rw [hr])
    rw [hr] at this
    exact h3.trans this

theorem flush : Empt p (flushBuf p) := by
  intro fl s a h
  unfold flushBuf at h ⊢
  split at h
  · next hb => rw [if_pos hb]; exact hb
  · next hb =>
    rw [if_neg hb]
    unfold osWrite at h ⊢
    cases hf : fl s.calls with
    | none => simp [setBuf]
    | some k => rw [hf] at h; cases h

theorem withOther {p' : Path} {body : W α} (hne : p' ≠ p) (hb : Empt p body) : Empt p (withWriter p' body) := by
  intro fl s a h
  unfold withWriter at h ⊢
  rcases hr : osCall (.create p') fl s with ⟨r, s'⟩
  rw [hr] at h
  cases r with
  | error e => cases h
  | ok u =>
    obtain ⟨_, _, _, h3⟩ := Keeps.flushBuf hne fl (body fl { s' with buf := setBuf s'.buf p' [] }).2
    exact h3.trans (hb fl _ a h)

end Empt

namespace Ho
variable {α β : Type} {fl : Faults} {q : Path → Prop} {I : WState → Prop}

theorem liftR (r : R α) : Ho fl I (Model.liftR r) := fun _ _ h _ => h
theorem pure (a : α) : Ho fl I (pure a : W α) := fun _ _ h _ => h

theorem bind {m : W α} {k : α → W β} (hm : Ho fl I m) (hk : ∀ a, Ho fl I (k a)) : Ho fl I (m >>= k) := by
  intro s b hs h
  rw [W.bind_def] at h ⊢
  rcases hr : m fl s with ⟨r, s'⟩
  rw [hr] at h
  cases r with
  | error e => cases h
  | ok a =>
    have := hm s a hs (by rw [hr])
    rw [hr] at this
    exact hk a s' b this h

theorem step {m : W α} (cfg : BuildCfg) (hm : Ho fl I m) : Ho fl I (cfg.step m) := by
  unfold BuildCfg.step
  split
  · intro s a hs h
    refine hm s a hs ?_
    unfold W.mapResult at h
    dsimp only at h
    cases hr : (m fl s).1 with
    | ok b => rw [hr] at h; exact h
    | error e => rw [hr] at h; cases e <;> cases h
  · exact hm

theorem osCall (hI : Lasting fl q I) {op : FsOp} (hop : ∀ p, ¬ WritesTo p op) : Ho fl I (osCall op) := by
  intro s a hs h
  unfold Model.osCall at h ⊢
  cases hf : fl s.calls with
  | none => exact hI.call s op s.buf hs hf fun p _ => hop p
  | some k => rw [hf] at h; cases h

theorem osWrite (hI : Lasting fl q I) {p : Path} (hp : ¬ q p) (bs b1 : List UInt8) (b2 : Nat → List UInt8) : Ho fl I (osWrite p bs b1 b2) := by
  intro s a hs h
  unfold Model.osWrite at h ⊢
  cases hf : fl s.calls with
  | none =>
    refine hI.call s _ _ hs hf fun p' hp' hw => ?_
    obtain ⟨b, hb⟩ := hw
    cases hb
    exact hp hp'
  | some k => rw [hf] at h; cases h

theorem flushBuf (hI : Lasting fl q I) {p : Path} (hp : ¬ q p) : Ho fl I (flushBuf p) := by
  intro s a hs h
  unfold Model.flushBuf at h ⊢
  split
  · exact hs
  · next hb => rw [if_neg hb] at h; exact Ho.osWrite hI hp _ _ _ s a hs h

theorem writeCold (hI : Lasting fl q I) {p : Path} (hp : ¬ q p) (d : List UInt8) : Ho fl I (writeCold p d) := by
  intro s a hs h
  unfold Model.writeCold at h ⊢
  split
  · next hb => rw [if_pos hb] at h; exact Ho.osWrite hI hp _ _ _ s a hs h
  · exact hI.buf _ _ hs

theorem writeAll (hI : Lasting fl q I) {p : Path} (hp : ¬ q p) (d : List UInt8) : Ho fl I (writeAll p d) := by
  intro s a hs h
  unfold Model.writeAll at h ⊢
  split
  · exact hI.buf _ _ hs
  · next h1 =>
    rw [if_neg h1] at h
    split
    · next h2 =>
      rw [if_pos h2] at h
      exact ((Ho.flushBuf hI hp).bind fun _ => Ho.writeCold hI hp d) s a hs h
    · next h2 =>
      rw [if_neg h2] at h
      exact Ho.writeCold hI hp d s a hs h

theorem writeData (hI : Lasting fl q I) {p : Path} (hp : ¬ q p) (env : BuildEnv) (d : List UInt8) : Ho fl I (env.writeData p d) := by
  unfold BuildEnv.writeData
  induction env.pieces (compressWrite env.feature env.flate d .deflate) with
  | nil => exact Ho.pure ()
  | cons x xs ih => exact (Ho.writeAll hI hp x).bind fun _ => ih

theorem withWriter (hI : Lasting fl q I) {p : Path} {body : W α} (hb : Ho fl I body) (he : Empt p body) : Ho fl I (withWriter p body) := by
  intro s a hs h
  unfold Model.withWriter at h ⊢
  have hc := Ho.osCall hI (op := .create p) (by rintro p' ⟨b, hb⟩; cases hb) s
  rcases hr : Model.osCall (.create p) fl s with ⟨r, s'⟩
  rw [hr] at h hc
  cases r with
  | error e => cases h
  | ok u =>
    have h1 := hb { s' with buf := setBuf s'.buf p [] } a (hI.buf _ _ (hc () hs rfl)) h
    have h2 := he fl _ a h
    dsimp only at h1 h2 ⊢
    unfold dropWriter Model.flushBuf
    rw [if_pos h2]
    exact h1

theorem writeFile (hI : Lasting fl q I) {p : Path} (hp : ¬ q p) (env : BuildEnv) (d : List UInt8) :
    Ho fl I (Model.withWriter p (do env.writeData p d; Model.flushBuf p)) :=
  Ho.withWriter hI ((Ho.writeData hI hp env d).bind fun _ => Ho.flushBuf hI hp) (Empt.last fun _ => Empt.flush)

end Ho

/-- So far no call has failed. -/
def Tidy (fl : Faults) (s : WState) : Prop := s.ops.length = s.calls ∧ ∀ n, n < s.calls → fl n = none

/-- So far no call has failed, except possibly the last write to `q`. -/
def Almost (fl : Faults) (q : Path) (s : WState) : Prop := s.ops.length = s.calls ∧ ∀ n, n < s.calls → fl n ≠ none →
  LastWrite s.ops q n

theorem Tidy.almost {fl : Faults} {s : WState} (h : Tidy fl s) (q : Path) : Almost fl q s :=
  ⟨h.1, fun n hn hf => absurd (h.2 n hn) hf⟩

theorem lasting_tidy (fl : Faults) : Lasting fl (fun _ => False) (Tidy fl) where
  buf := fun _ _ h => h
  call := fun s op b h hf _ => by
    refine ⟨by simp [h.1], fun n hn => ?_⟩
    dsimp only at hn
    rcases Nat.lt_or_ge n s.calls with h1 | h1
    · exact h.2 n h1
    · have : n = s.calls := by omega
      rw [this]; exact hf

theorem lasting_almost (fl : Faults) (q : Path) : Lasting fl (· = q) (Almost fl q) where
  buf := fun _ _ h => h
  call := fun s op b h hf hop => by
    refine ⟨by simp [h.1], fun n hn hfn => ?_⟩
    dsimp only at hn ⊢
    rcases Nat.lt_or_ge n s.calls with h1 | h1
    · obtain ⟨⟨o, ho, hw⟩, hl⟩ := h.2 n h1 hfn
      refine ⟨⟨o, ?_, hw⟩, fun m hm o' ho' => ?_⟩
      · rw [List.getElem?_append_left (by rw [h.1]; exact h1)]; exact ho
      · rcases Nat.lt_or_ge m s.ops.length with h2 | h2
        · rw [List.getElem?_append_left h2] at ho'
          exact hl m hm o' ho'
        · rw [List.getElem?_append_right h2] at ho'
          obtain ⟨hlt, he⟩ := List.getElem?_eq_some_iff.mp ho'
          simp only [List.length_singleton] at hlt
          have : m - s.ops.length = 0 := by omega
          simp only [this, List.getElem_cons_zero] at he
          rw [← he]; exact hop q rfl
    · have : n = s.calls := by omega
      rw [this] at hfn
      exact absurd hf hfn

/-- A writer that is dropped with bytes in its buffer: its last write may fail unnoticed. -/
theorem tidy_drop {α : Type} {fl : Faults} {p : Path} {body : W α} (hb : Ho fl (Tidy fl) body) {s : WState} {a : α} (hs : Tidy fl s)
    (h : (withWriter p body fl s).1 = .ok a) : Almost fl p (withWriter p body fl s).2 := by
  unfold withWriter at h ⊢
  have hc := Ho.osCall (lasting_tidy fl) (op := .create p) (by rintro p' ⟨b, hb⟩; cases hb) s
  rcases hr : osCall (.create p) fl s with ⟨r, s'⟩
  rw [hr] at h hc
  cases r with
  | error e => cases h
  | ok u =>
    have h1 := hb { s' with buf := setBuf s'.buf p [] } a (hc () hs rfl) h
    dsimp only at h1 ⊢
    generalize (body fl { s' with buf := setBuf s'.buf p [] }).2 = t at h1 ⊢
    unfold dropWriter flushBuf
    split
    · exact h1.almost p
    · have key : ∀ bytes b, Almost fl p ⟨t.ops ++ [.append p bytes], t.calls + 1, b⟩ := by
        intro bytes b
        refine ⟨by simp [h1.1], fun n hn hfn => ?_⟩
        dsimp only at hn ⊢
        have hn' : n = t.calls := by
          rcases Nat.lt_or_ge n t.calls with h2 | h2
          · exact absurd (h1.2 n h2) hfn
          · omega
        subst hn'
        refine ⟨⟨.append p bytes, ?_, bytes, rfl⟩, fun m hm o ho => ?_⟩
        · rw [← h1.1]; simp
        · have := (List.getElem?_eq_some_iff.mp ho).1
          simp [h1.1] at this
          omega
      unfold osWrite
      cases fl t.calls <;> exact key _ _

theorem ho_dict_inner {fl : Faults} {I : WState → Prop} {q : Path → Prop} (hI : Lasting fl q I) {env : BuildEnv} {cfg : BuildCfg} {rows : List Row} {out : Path}
    (hq : ∀ n, ¬ q (inDir out n)) :
    Ho fl I (withWriter (inDir out "dict.vals") do
      let m ← liftR (cfg.dict.entryMap rows)
      withWriter (inDir out "dict.words") <| withWriter (inDir out "dict.wordsidx") do
        let bufs ← liftR (rows.foldlM (init := ([], [])) cfg.dict.pushDetails)
        env.writeData (inDir out "dict.words") bufs.1
        env.writeData (inDir out "dict.wordsidx") bufs.2
        flushBuf (inDir out "dict.words")
        flushBuf (inDir out "dict.wordsidx")
        let a ← liftR (env.doubleArray m)
        env.writeData (inDir out "dict.da") (env.format.store a)
        env.writeData (inDir out "dict.vals") (valsBuffer m)
        flushBuf (inDir out "dict.vals")) := by
  have hne : ∀ {a b : String}, a ≠ b → inDir out a ≠ inDir out b := fun h => file_ne h
  refine Ho.withWriter hI ((Ho.liftR _).bind fun m => Ho.withWriter hI (Ho.withWriter hI ?_ ?_) ?_) ?_
  · refine (Ho.liftR _).bind fun bufs => (Ho.writeData hI (hq _) _ _).bind fun _ => (Ho.writeData hI (hq _) _ _).bind fun _ =>
      (Ho.flushBuf hI (hq _)).bind fun _ => (Ho.flushBuf hI (hq _)).bind fun _ => (Ho.liftR _).bind fun a =>
      (Ho.writeData hI (hq _) _ _).bind fun _ => (Ho.writeData hI (hq _) _ _).bind fun _ => Ho.flushBuf hI (hq _)
  · refine Empt.last fun bufs => Empt.last fun _ => Empt.last fun _ => Empt.last fun _ => Empt.first Empt.flush fun _ => ?_
    exact (Keeps.liftR _).bind fun a => (Keeps.writeData (hne (by decide)) _ _).bind fun _ => (Keeps.writeData (hne (by decide)) _ _).bind fun _ => Keeps.flushBuf (hne (by decide))
  · refine Empt.withOther (hne (by decide)) ?_
    refine Empt.last fun bufs => Empt.last fun _ => Empt.last fun _ => Empt.first Empt.flush fun _ => ?_
    exact (Keeps.flushBuf (hne (by decide))).bind fun _ => (Keeps.liftR _).bind fun a => (Keeps.writeData (hne (by decide)) _ _).bind fun _ => (Keeps.writeData (hne (by decide)) _ _).bind fun _ => Keeps.flushBuf (hne (by decide))
  · refine Empt.last fun m => Empt.withOther (hne (by decide)) (Empt.withOther (hne (by decide)) ?_)
    exact Empt.last fun bufs => Empt.last fun _ => Empt.last fun _ => Empt.last fun _ => Empt.last fun _ => Empt.last fun _ => Empt.last fun _ => Empt.last fun _ => Empt.flush

theorem bind_run {α β : Type} {m : W α} {k : α → W β} {fl : Faults} {s : WState} {b : β} (h : ((m >>= k) fl s).1 = .ok b) :
    ∃ a, (m fl s).1 = .ok a ∧ (k a fl (m fl s).2).1 = .ok b ∧ ((m >>= k) fl s).2 = (k a fl (m fl s).2).2 := by
  rw [W.bind_def] at h ⊢
  rcases hr : m fl s with ⟨r, s'⟩
  rw [hr] at h
  cases r with
  | error e => cases h
  | ok a => exact ⟨a, rfl, h, rfl⟩

theorem step_run {α : Type} {cfg : BuildCfg} {m : W α} {fl : Faults} {s : WState} {a : α} (h : (cfg.step m fl s).1 = .ok a) :
    (m fl s).1 = .ok a ∧ (cfg.step m fl s).2 = (m fl s).2 := by
  unfold BuildCfg.step at h ⊢
  split at h
  · next hu =>
    rw [if_pos hu]
    unfold W.mapResult at h ⊢
    dsimp only at h ⊢
    refine ⟨?_, rfl⟩
    cases hr : (m fl s).1 with
    | ok b => rw [hr] at h; exact h
    | error e => rw [hr] at h; cases e <;> cases h
  · next hu => rw [if_neg hu]; exact ⟨h, rfl⟩

/-- A successful build made no failing call, except possibly the last write to `dict.da`. -/
theorem almost_build {fl : Faults} {env : BuildEnv} {kind : DictionaryKind} {src : SourceDir} {out : Path}
    (h : (env.buildDictionary kind src out fl .start).1 = .ok ()) : Almost fl (inDir out "dict.da") (env.buildDictionary kind src out fl .start).2 := by
  have h0 : Tidy fl .start := ⟨rfl, fun n hn => by simp [WState.start] at hn⟩
  unfold BuildEnv.buildDictionary at h ⊢
  have hT := lasting_tidy fl
  have hA := lasting_almost fl (inDir out "dict.da")
  obtain ⟨_, a1, h, e⟩ := bind_run h
  rw [e]; clear e
  have t1 := Ho.osCall hT (op := .mkdir out) (by rintro p ⟨b, hb⟩; cases hb) _ _ h0 a1
  obtain ⟨cd, a2, h, e⟩ := bind_run h
  rw [e]; clear e
  have t2 : Tidy fl _ := (Ho.step (BuildCfg.ofKind kind) (show Ho fl (Tidy fl) (env.buildChardef (BuildCfg.ofKind kind) src out) from
    (Ho.liftR _).bind fun d => (Ho.writeFile hT (by simp) env _).bind fun _ => Ho.pure d)) _ _ t1 a2
  obtain ⟨_, a3, h, e⟩ := bind_run h
  rw [e]; clear e
  have t3 : Tidy fl _ := (Ho.step (BuildCfg.ofKind kind) (show Ho fl (Tidy fl) (env.buildUnk (BuildCfg.ofKind kind) src cd out) from
    (Ho.liftR _).bind fun d => Ho.writeFile hT (by simp) env _)) _ _ t2 a3
  obtain ⟨_, a4, h, e⟩ := bind_run h
  rw [e]; clear e
  obtain ⟨a4', e4⟩ := step_run a4
  rw [e4] at h ⊢
  have t4 : Almost fl (inDir out "dict.da") (env.buildDict (BuildCfg.ofKind kind) src out fl (((BuildCfg.ofKind kind).step (env.buildUnk (BuildCfg.ofKind kind) src cd out) fl
      (((BuildCfg.ofKind kind).step (env.buildChardef (BuildCfg.ofKind kind) src out) fl (osCall (.mkdir out) fl .start).2).2)).2)).2 := by
    unfold BuildEnv.buildDict at a4' ⊢
    obtain ⟨rows, b1, b2, e⟩ := bind_run a4'
    rw [e]
    exact tidy_drop (ho_dict_inner hT (by simp)) t3 b2
  refine (Ho.step (BuildCfg.ofKind kind) (show Ho fl (Almost fl (inDir out "dict.da")) (env.buildCostMatrix (BuildCfg.ofKind kind) src out) from
    (Ho.liftR _).bind fun d => Ho.writeFile hA (p := inDir out "matrix.mtx") (file_ne (by decide)) env _)) _ _ t4 h

/-! ### Faults after the last call do not matter -/

/-- The run depends only on the faults of the calls it makes. -/
def Local {α : Type} (m : W α) : Prop := ∀ fl s, s.calls ≤ (m fl s).2.calls ∧
  ∀ fl', (∀ n, n < (m fl s).2.calls → fl n = fl' n) → m fl' s = m fl s

namespace Local
variable {α β : Type}

theorem liftR (r : R α) : Local (Model.liftR r) := fun _ _ => ⟨Nat.le_refl _, fun _ _ => rfl⟩
theorem pure (a : α) : Local (pure a : W α) := fun _ _ => ⟨Nat.le_refl _, fun _ _ => rfl⟩

theorem bind {m : W α} {k : α → W β} (hm : Local m) (hk : ∀ a, Local (k a)) : Local (m >>= k) := by
  intro fl s
  obtain ⟨h1, h2⟩ := hm fl s
  rw [W.bind_def]
  rcases hr : m fl s with ⟨r, s'⟩
  rw [hr] at h1 h2
  cases r with
  | error e =>
    refine ⟨h1, fun fl' hf => ?_⟩
    rw [W.bind_def, h2 fl' hf]
  | ok a =>
    obtain ⟨h3, h4⟩ := hk a fl s'
    dsimp only at h1 h2 h3 h4 ⊢
    refine ⟨Nat.le_trans h1 h3, fun fl' hf => ?_⟩
    rw [W.bind_def, h2 fl' fun n hn => hf n (Nat.lt_of_lt_of_le hn h3)]
    exact h4 fl' hf

theorem mapResult {m : W α} (f : R α → R α) (hm : Local m) : Local (m.mapResult f) := by
  intro fl s
  obtain ⟨h1, h2⟩ := hm fl s
  refine ⟨h1, fun fl' hf => ?_⟩
  unfold W.mapResult
  rw [h2 fl' hf]

theorem step {m : W α} (cfg : BuildCfg) (hm : Local m) : Local (cfg.step m) := by
  unfold BuildCfg.step
  split
  · exact hm.mapResult _
  · exact hm

theorem osCall (op : FsOp) : Local (osCall op) := by
  intro fl s
  unfold Model.osCall
  cases hf : fl s.calls with
  | none => exact ⟨Nat.le_succ _, fun fl' h => by rw [← h s.calls (Nat.lt_succ_self _), hf]⟩
  | some k => exact ⟨Nat.le_succ _, fun fl' h => by rw [← h s.calls (Nat.lt_succ_self _), hf]⟩

theorem osWrite (p : Path) (bs b1 : List UInt8) (b2 : Nat → List UInt8) : Local (osWrite p bs b1 b2) := by
  intro fl s
  unfold Model.osWrite
  cases hf : fl s.calls with
  | none => exact ⟨Nat.le_succ _, fun fl' h => by rw [← h s.calls (Nat.lt_succ_self _), hf]⟩
  | some k => exact ⟨Nat.le_succ _, fun fl' h => by rw [← h s.calls (Nat.lt_succ_self _), hf]⟩

theorem flushBuf (p : Path) : Local (flushBuf p) := by
  intro fl s
  unfold Model.flushBuf
  split
  · exact ⟨Nat.le_refl _, fun _ _ => rfl⟩
  · exact Local.osWrite _ _ _ _ fl s

theorem writeCold (p : Path) (d : List UInt8) : Local (writeCold p d) := by
  intro fl s
  unfold Model.writeCold
  split
  · exact Local.osWrite _ _ _ _ fl s
  · exact ⟨Nat.le_refl _, fun _ _ => rfl⟩

theorem writeAll (p : Path) (d : List UInt8) : Local (writeAll p d) := by
  intro fl s
  unfold Model.writeAll
  split
  · exact ⟨Nat.le_refl _, fun _ _ => rfl⟩
  · split
    · exact ((Local.flushBuf p).bind fun _ => Local.writeCold p d) fl s
    · exact Local.writeCold p d fl s

theorem writeData (env : BuildEnv) (p : Path) (d : List UInt8) : Local (env.writeData p d) := by
  unfold BuildEnv.writeData
  induction env.pieces (compressWrite env.feature env.flate d .deflate) with
  | nil => exact Local.pure ()
  | cons x xs ih => exact (Local.writeAll p x).bind fun _ => ih

theorem withWriter (p : Path) {body : W α} (hb : Local body) : Local (withWriter p body) := by
  intro fl s
  unfold Model.withWriter
  obtain ⟨h1, h2⟩ := Local.osCall (.create p) fl s
  rcases hr : Model.osCall (.create p) fl s with ⟨r, s'⟩
  rw [hr] at h1 h2
  cases r with
  | error e =>
    refine ⟨h1, fun fl' hf => ?_⟩
    rw [h2 fl' hf]
  | ok u =>
    dsimp only at h1 h2 ⊢
    obtain ⟨h3, h4⟩ := hb fl { s' with buf := setBuf s'.buf p [] }
    obtain ⟨h5, h6⟩ := Local.flushBuf p fl (body fl { s' with buf := setBuf s'.buf p [] }).2
    unfold dropWriter
    dsimp only at h3 h4
    refine ⟨by omega, fun fl' hf => ?_⟩
    rw [h2 fl' fun n hn => hf n (by omega)]
    dsimp only
    rw [h4 fl' fun n hn => hf n (by omega), h6 fl' hf]

theorem writeFile (env : BuildEnv) (p : Path) (d : List UInt8) : Local (Model.withWriter p (do env.writeData p d; Model.flushBuf p)) :=
  Local.withWriter p ((Local.writeData env p d).bind fun _ => Local.flushBuf p)

theorem build (env : BuildEnv) (kind : DictionaryKind) (src : SourceDir) (out : Path) : Local (env.buildDictionary kind src out) := by
  unfold BuildEnv.buildDictionary
  refine (Local.osCall _).bind fun _ => (Local.step _ ?_).bind fun cd => (Local.step _ ?_).bind fun _ => (Local.step _ ?_).bind fun _ => Local.step _ ?_
  · exact (Local.liftR _).bind fun d => (Local.writeFile env _ _).bind fun _ => Local.pure d
  · exact (Local.liftR _).bind fun d => Local.writeFile env _ _
  · refine (Local.liftR _).bind fun rows => Local.withWriter _ (Local.withWriter _ ((Local.liftR _).bind fun m => Local.withWriter _ (Local.withWriter _ ?_)))
    exact (Local.liftR _).bind fun bufs => (Local.writeData _ _ _).bind fun _ => (Local.writeData _ _ _).bind fun _ => (Local.flushBuf _).bind fun _ =>
      (Local.flushBuf _).bind fun _ => (Local.liftR _).bind fun a => (Local.writeData _ _ _).bind fun _ => (Local.writeData _ _ _).bind fun _ => Local.flushBuf _
  · exact (Local.liftR _).bind fun d => Local.writeFile env _ _

end Local

/-- A run in which none of the calls made fails is a run without faults. -/
theorem build_noFaults {env : BuildEnv} {kind : DictionaryKind} {src : SourceDir} {out : Path} {fl : Faults}
    (h : ∀ n, n < (env.buildDictionary kind src out fl .start).2.calls → fl n = none) :
    env.buildDictionary kind src out (fun _ => none) .start = env.buildDictionary kind src out fl .start :=
  (Local.build env kind src out fl .start).2 _ h

end Verif.Model
