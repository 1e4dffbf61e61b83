import Verif.Spec.Schedule
import Verif.Proofs.BuildAll
/-! Programs that write files at the same time. -/
namespace Verif.Model
open Verif.Spec

/-- The files as one program sees them: only what it has done itself. -/
inductive Own (calls : List FsOp) : List FsOp → Fs → Prop
  | between (before after : List FsOp) (h : calls = before ++ after) : Own calls after (runOps (fun _ => none) before)
  | within (before after : List FsOp) (p : Path) (bytes : List UInt8) (k : Nat) (hk : k ≤ bytes.length) (h : calls = before ++ .append p bytes :: after) :
      Own calls (.append p (bytes.drop k) :: after) (runOps (fun _ => none) (before ++ [.append p (bytes.take k)]))

theorem Own.crashed {calls todo : List FsOp} {own : Fs} (h : Own calls todo own) : Crashed (fun _ => none) calls own := by
  cases h with
  | between before after h => rw [h]; exact .between before todo
  | within before after p bytes k hk h => rw [h]; exact .within before after p bytes k

theorem Own.ended {calls : List FsOp} {own : Fs} (h : Own calls [] own) : own = runOps (fun _ => none) calls := by
  cases h with
  | between before after h => rw [h, List.append_nil]

theorem Own.mkdir {calls rest : List FsOp} {own : Fs} {p : Path} (h : Own calls (.mkdir p :: rest) own) : Own calls rest own := by
  cases h with
  | between before after h =>
    have := Own.between (calls := calls) (before ++ [.mkdir p]) rest (by rw [h]; simp)
    rwa [runOps_append] at this

theorem Own.create {calls rest : List FsOp} {own : Fs} {p : Path} (h : Own calls (.create p :: rest) own) :
    Own calls rest (Function.update own p (some [])) := by
  cases h with
  | between before after h =>
    have := Own.between (calls := calls) (before ++ [.create p]) rest (by rw [h]; simp)
    rw [runOps_append] at this
    convert this using 1
    funext q
    by_cases hq : q = p <;> simp [runOps, FsOp.apply, Function.update, hq]

theorem own_append (own : Fs) (p : Path) (x bytes : List UInt8) (h : own p = some x) :
    FsOp.apply own (.append p bytes) = Function.update own p (some (x ++ bytes)) := by
  funext q
  by_cases hq : q = p
  · subst hq; simp [FsOp.apply, Function.update, h]
  · simp [FsOp.apply, Function.update, hq]

theorem Own.write {calls rest : List FsOp} {own : Fs} {p : Path} {now later x : List UInt8} (h : Own calls (.append p (now ++ later) :: rest) own)
    (hx : own p = some x) : Own calls (if later = [] then rest else .append p later :: rest) (Function.update own p (some (x ++ now))) := by
  generalize htodo : FsOp.append p (now ++ later) :: rest = todo at h
  cases h with
  | between before after h =>
    subst htodo
    rw [← own_append _ _ _ _ hx]
    split
    · rename_i hl
      subst hl
      have := Own.between (calls := calls) (before ++ [.append p now]) rest (by rw [h]; simp)
      rwa [runOps_append] at this
    · have := Own.within (calls := calls) before rest p (now ++ later) now.length (by simp) h
      rwa [runOps_append, List.drop_left, List.take_left] at this
  | within before after p' bytes k hk h =>
    simp only [List.cons.injEq, FsOp.append.injEq] at htodo
    obtain ⟨⟨rfl, hb⟩, rfl⟩ := htodo
    have hbytes : bytes = bytes.take k ++ (now ++ later) := by rw [hb, List.take_append_drop]
    have hkl : (bytes.take k).length = k := by simp [hk]
    have hlen : bytes.length = k + now.length + later.length := by
      have := congrArg List.length hbytes
      simp only [List.length_append, hkl] at this
      omega
    have htake : bytes.take (k + now.length) = bytes.take k ++ now := by
      conv_lhs => rw [hbytes, ← List.append_assoc]
      rw [List.take_left' (by simp [hkl])]
    have hdrop : bytes.drop (k + now.length) = later := by
      conv_lhs => rw [hbytes, ← List.append_assoc]
      rw [List.drop_left' (by simp [hkl])]
    have hown : Function.update (runOps (fun _ => none) (before ++ [.append p (bytes.take k)])) p (some (x ++ now)) =
        runOps (fun _ => none) (before ++ [.append p (bytes.take (k + now.length))]) := by
      rw [← own_append _ _ _ _ hx, runOps_append, runOps_append, htake]
      funext q
      by_cases hq : q = p
      · subst hq; cases hv : runOps (fun _ => none) before q <;> simp [runOps, FsOp.apply] at hv ⊢ <;> simp [hv]
      · simp [runOps, FsOp.apply, hq]
    rw [hown]
    split
    · rename_i hl
      subst hl
      refine Own.between _ rest ?_
      rw [h, htake, ← (by simpa using hbytes : bytes = bytes.take k ++ now)]
      simp
    · have := Own.within (calls := calls) before rest p bytes (k + now.length) (by omega) h
      rwa [hdrop] at this

theorem writeAt_length (old : List UInt8) (pos : Nat) (bytes : List UInt8) : (writeAt old pos bytes).length = max old.length (pos + bytes.length) := by
  unfold writeAt
  simp
  omega

theorem writeAt_get (old : List UInt8) (pos : Nat) (bytes : List UInt8) (k : Nat) (hk : k < old.length) :
    (writeAt old pos bytes)[k]? = if pos ≤ k ∧ k < pos + bytes.length then bytes[k - pos]? else old[k]? := by
  unfold writeAt
  have h1 : ((old ++ List.replicate (pos - old.length) 0).take pos).length = pos := by simp; omega
  by_cases h : k < pos
  · rw [List.getElem?_append_left (by simp; omega), List.getElem?_append_left (by omega), List.getElem?_take_of_lt h, List.getElem?_append_left hk, if_neg (by omega)]
  · by_cases h2 : k < pos + bytes.length
    · rw [List.getElem?_append_left (by simp; omega), List.getElem?_append_right (by omega), h1, if_pos (by omega)]
    · rw [List.getElem?_append_right (by rw [List.length_append, h1]; omega), List.length_append, h1, if_neg (by omega), List.getElem?_drop]
      congr 1
      omega

/-- Own writes continue what is there. -/
theorem writeAt_own {x y bytes : List UInt8} (h : x <+: y) : x ++ bytes <+: writeAt y x.length bytes := by
  obtain ⟨z, rfl⟩ := h
  unfold writeAt
  rw [List.append_assoc x z, List.take_left]
  exact List.prefix_append _ _

/-- Writes of the same data by others change nothing that is there. -/
theorem writeAt_other {x y full z bytes : List UInt8} (hx : x <+: full) (h : x <+: y) (hz : z ++ bytes <+: full) : x <+: writeAt y z.length bytes := by
  have hxy := h.length_le
  rw [List.prefix_iff_getElem?]
  intro k hk
  rw [writeAt_get _ _ _ _ (by omega)]
  split
  · rename_i hc
    have h1 := (List.prefix_iff_getElem?.mp hz) k (by simp; omega)
    have h2 := (List.prefix_iff_getElem?.mp hx) k hk
    rw [h1] at h2
    have h3 : (z ++ bytes)[k]? = bytes[k - z.length]? := List.getElem?_append_right hc.1
    rw [← h3, List.getElem?_eq_getElem (by simp; omega)]
    exact h2
  · exact List.prefix_iff_getElem?.mp h k hk

theorem writeAt_get_past (old : List UInt8) (pos : Nat) (bytes : List UInt8) (k : Nat) (hk : old.length ≤ k) (h : k < pos) : (writeAt old pos bytes)[k]? = some 0 := by
  unfold writeAt
  rw [List.getElem?_append_left (by simp; omega), List.getElem?_append_left (by simp; omega), List.getElem?_take_of_lt h, List.getElem?_append_right hk,
    List.getElem?_replicate, if_pos (by omega)]

theorem writeAt_get_in (old : List UInt8) (pos : Nat) (bytes : List UInt8) (k : Nat) (h : pos ≤ k) (h' : k < pos + bytes.length) :
    (writeAt old pos bytes)[k]? = bytes[k - pos]? := by
  unfold writeAt
  have h1 : ((old ++ List.replicate (pos - old.length) 0).take pos).length = pos := by simp; omega
  rw [List.getElem?_append_left (by simp; omega), List.getElem?_append_right (by omega), h1]

theorem patched_writeAt {F : List UInt8 → Prop} {full y z bytes : List UInt8} (h : Patched F y) (hF : F full) (hz : z ++ bytes <+: full) : Patched F (writeAt y z.length bytes) := by
  have hzl := hz.length_le
  rw [List.length_append] at hzl
  refine ⟨?_, fun k hk => ?_⟩
  · rw [writeAt_length]
    obtain ⟨full', h1, h2⟩ := h.1
    rcases Nat.le_total y.length (z.length + bytes.length) with h3 | h3
    · exact ⟨full, hF, by omega⟩
    · exact ⟨full', h1, by omega⟩
  rw [writeAt_length] at hk
  by_cases hin : z.length ≤ k ∧ k < z.length + bytes.length
  · refine .inl ⟨full, hF, ?_⟩
    rw [writeAt_get_in _ _ _ _ hin.1 hin.2]
    have h1 := (List.prefix_iff_getElem?.mp hz) k (by simp; omega)
    rw [h1, ← List.getElem?_append_right hin.1, List.getElem?_eq_getElem (by simp; omega)]
  · by_cases hy : k < y.length
    · rw [writeAt_get _ _ _ _ hy, if_neg hin]
      exact h.2 k hy
    · right
      exact writeAt_get_past _ _ _ _ (by omega) (by omega)

section
variable {ι : Type} [DecidableEq ι]

/-- What every program has done itself, and its positions. -/
def Owns (calls : ι → List FsOp) (w : World ι) (own : ι → Fs) : Prop :=
  ∀ i, Own (calls i) (w.procs i).todo (own i) ∧ (w.procs i).pos = fun q => (own i q).map List.length

/-- A file that is untouched, or begins with what the last program that created it has written. -/
def Shared (fs₀ : Fs) (full : List UInt8) (p : Path) (w : World ι) (own : ι → Fs) : Prop :=
  ((∀ i, own i p = none) ∧ w.fs p = fs₀ p) ∨ ∃ j x y, own j p = some x ∧ w.fs p = some y ∧ x <+: y ∧ y.length ≤ full.length

theorem owns_update {calls : ι → List FsOp} {w : World ι} {own : ι → Fs} (h : Owns calls w own) (i : ι) (fs : Fs) {todo : List FsOp} {pos : Path → Option Nat} {o : Fs}
    (h1 : Own (calls i) todo o) (h2 : pos = fun q => (o q).map List.length) :
    Owns calls ⟨fs, Function.update w.procs i ⟨todo, pos⟩⟩ (Function.update own i o) := by
  intro j
  by_cases hj : j = i
  · subst hj; simpa using ⟨h1, h2⟩
  · simpa [Function.update_of_ne hj] using h j

theorem turn_shared {calls : ι → List FsOp} {fs₀ : Fs} {full : List UInt8} {p : Path}
    (hfull : ∀ i o, Crashed (fun _ => none) (calls i) o → o p = none ∨ ∃ x, o p = some x ∧ x <+: full) {w w' : World ι} (ht : Turn w w') {own : ι → Fs}
    (ho : Owns calls w own) (hs : Shared fs₀ full p w own) : ∃ own', Owns calls w' own' ∧ Shared fs₀ full p w' own' := by
  cases ht with
  | mkdir i q rest pos h =>
    obtain ⟨h1, h2⟩ := ho i
    rw [h] at h1 h2
    refine ⟨Function.update own i (own i), owns_update ho i _ h1.mkdir h2, ?_⟩
    rw [Function.update_eq_self]
    exact hs
  | create i q rest pos h =>
    obtain ⟨h1, h2⟩ := ho i
    rw [h] at h1 h2
    dsimp only at h1 h2
    refine ⟨_, owns_update ho i _ h1.create ?_, ?_⟩
    · funext r
      by_cases hr : r = q
      · subst hr; simp
      · simp [Function.update_of_ne hr, h2]
    · by_cases hq : p = q
      · subst hq
        exact .inr ⟨i, [], [], by simp, by simp, List.prefix_refl _, by simp⟩
      · rcases hs with ⟨h3, h4⟩ | ⟨j, x, y, h3, h4, h5⟩
        · refine .inl ⟨fun j => ?_, by simp [Function.update_of_ne hq, h4]⟩
          by_cases hj : j = i
          · subst hj; simp [Function.update_of_ne hq, h3]
          · simp [Function.update_of_ne hj, h3]
        · refine .inr ⟨j, x, y, ?_, by simp [Function.update_of_ne hq, h4], h5⟩
          by_cases hj : j = i
          · subst hj; simp [Function.update_of_ne hq, h3]
          · simp [Function.update_of_ne hj, h3]
  | write i q now later rest pos at' old h hpos hold =>
    obtain ⟨h1, h2⟩ := ho i
    rw [h] at h1 h2
    dsimp only at h1 h2
    have hown : ∃ z, own i q = some z ∧ z.length = at' := by
      rw [h2] at hpos
      simpa using hpos
    obtain ⟨z, hz, rfl⟩ := hown
    have h1' := h1.write hz
    refine ⟨_, owns_update ho i _ h1' ?_, ?_⟩
    · funext r
      by_cases hr : r = q
      · subst hr; simp
      · simp [Function.update_of_ne hr, h2]
    · by_cases hq : p = q
      · subst hq
        have hzf : z ++ now <+: full := by
          rcases hfull i _ h1'.crashed with h | ⟨x, h, hx⟩
          · simp at h
          · simp at h; rwa [h]
        rcases hs with ⟨h3, -⟩ | ⟨j, x, y, h3, h4, h5, h6⟩
        · rw [h3 i] at hz; cases hz
        · obtain rfl : y = old := by rw [h4] at hold; exact Option.some.inj hold
          have hlen : (writeAt y z.length now).length ≤ full.length := by
            rw [writeAt_length]
            have := hzf.length_le
            simp at this
            omega
          by_cases hj : j = i
          · subst hj
            obtain rfl : x = z := by rw [h3] at hz; exact Option.some.inj hz
            exact .inr ⟨j, x ++ now, _, by simp, by simp, writeAt_own h5, hlen⟩
          · have hx : x <+: full := by
              rcases hfull j _ (ho j).1.crashed with h | ⟨x', h, hx⟩
              · rw [h3] at h; cases h
              · rw [h3] at h; rw [Option.some.inj h]; exact hx
            exact .inr ⟨j, x, _, by simp [Function.update_of_ne hj, h3], by simp, writeAt_other hx h5 hzf, hlen⟩
      · rcases hs with ⟨h3, h4⟩ | ⟨j, x, y, h3, h4, h5⟩
        · refine .inl ⟨fun j => ?_, by simp [Function.update_of_ne hq, h4]⟩
          by_cases hj : j = i
          · subst hj; simp [Function.update_of_ne hq, h3]
          · simp [Function.update_of_ne hj, h3]
        · refine .inr ⟨j, x, y, ?_, by simp [Function.update_of_ne hq, h4], h5⟩
          by_cases hj : j = i
          · subst hj; simp [Function.update_of_ne hq, h3]
          · simp [Function.update_of_ne hj, h3]

theorem runs_shared {calls : ι → List FsOp} {fs₀ : Fs} {full : List UInt8} {p : Path}
    (hfull : ∀ i o, Crashed (fun _ => none) (calls i) o → o p = none ∨ ∃ x, o p = some x ∧ x <+: full) {w : World ι} (hr : Turns (World.start fs₀ calls) w) :
    ∃ own, Owns calls w own ∧ Shared fs₀ full p w own := by
  induction hr with
  | refl => exact ⟨fun _ _ => none, fun i => ⟨.between [] _ rfl, rfl⟩, .inl ⟨fun _ => rfl, rfl⟩⟩
  | tail _ ht ih =>
    obtain ⟨own, h1, h2⟩ := ih
    exact turn_shared hfull ht h1 h2

/-- Programs that write the same data to a file: at the end it holds this data. -/
theorem runs_ended {calls : ι → List FsOp} {fs₀ : Fs} {full : List UInt8} {p : Path}
    (hfull : ∀ i o, Crashed (fun _ => none) (calls i) o → o p = none ∨ ∃ x, o p = some x ∧ x <+: full)
    (hend : ∀ i, runOps (fun _ => none) (calls i) p = none ∨ runOps (fun _ => none) (calls i) p = some full) {w : World ι} (hr : Turns (World.start fs₀ calls) w)
    (he : w.Ended) (hex : ∃ i, runOps (fun _ => none) (calls i) p = some full) : w.fs p = some full := by
  obtain ⟨own, ho, hs⟩ := runs_shared hfull hr
  have hown : ∀ i, own i = runOps (fun _ => none) (calls i) := fun i => by
    have := (ho i).1
    rw [he i] at this
    exact this.ended
  rcases hs with ⟨h1, h2⟩ | ⟨j, x, y, h1, h2, h3, h4⟩
  · obtain ⟨i, hi⟩ := hex
    rw [← hown, h1] at hi
    cases hi
  · rw [hown] at h1
    rcases hend j with h | h
    · rw [h] at h1; cases h1
    · rw [h2]
      rw [h] at h1
      obtain rfl := Option.some.inj h1
      rw [h3.eq_of_length (by have := h3.length_le; omega)]

theorem turn_patched {calls : ι → List FsOp} {fs₀ : Fs} {F : List UInt8 → Prop} {p : Path}
    (hfull : ∀ i o, Crashed (fun _ => none) (calls i) o → o p = none ∨ ∃ x, o p = some x ∧ ∃ full, F full ∧ x <+: full) {w w' : World ι} (ht : Turn w w') {own : ι → Fs}
    (ho : Owns calls w own) (hs : ((∀ i, own i p = none) ∧ w.fs p = fs₀ p) ∨ ∃ y, w.fs p = some y ∧ Patched F y) :
    ∃ own', Owns calls w' own' ∧ (((∀ i, own' i p = none) ∧ w'.fs p = fs₀ p) ∨ ∃ y, w'.fs p = some y ∧ Patched F y) := by
  cases ht with
  | mkdir i q rest pos h =>
    obtain ⟨h1, h2⟩ := ho i
    rw [h] at h1 h2
    refine ⟨Function.update own i (own i), owns_update ho i _ h1.mkdir h2, ?_⟩
    rw [Function.update_eq_self]
    exact hs
  | create i q rest pos h =>
    obtain ⟨h1, h2⟩ := ho i
    rw [h] at h1 h2
    dsimp only at h1 h2
    refine ⟨_, owns_update ho i _ h1.create ?_, ?_⟩
    · funext r
      by_cases hr : r = q
      · subst hr; simp
      · simp [Function.update_of_ne hr, h2]
    · by_cases hq : p = q
      · subst hq
        have hF : ∃ full, F full := by
          rcases hfull i _ h1.create.crashed with h | ⟨x, -, full, hF, -⟩
          · simp at h
          · exact ⟨full, hF⟩
        exact .inr ⟨[], by simp, ⟨hF.choose, hF.choose_spec, by simp⟩, by simp⟩
      · rcases hs with ⟨h3, h4⟩ | ⟨y, h4, h5⟩
        · refine .inl ⟨fun j => ?_, by simp [Function.update_of_ne hq, h4]⟩
          by_cases hj : j = i
          · subst hj; simp [Function.update_of_ne hq, h3]
          · simp [Function.update_of_ne hj, h3]
        · exact .inr ⟨y, by simp [Function.update_of_ne hq, h4], h5⟩
  | write i q now later rest pos at' old h hpos hold =>
    obtain ⟨h1, h2⟩ := ho i
    rw [h] at h1 h2
    dsimp only at h1 h2
    have hown : ∃ z, own i q = some z ∧ z.length = at' := by
      rw [h2] at hpos
      simpa using hpos
    obtain ⟨z, hz, rfl⟩ := hown
    have h1' := h1.write hz
    refine ⟨_, owns_update ho i _ h1' ?_, ?_⟩
    · funext r
      by_cases hr : r = q
      · subst hr; simp
      · simp [Function.update_of_ne hr, h2]
    · by_cases hq : p = q
      · subst hq
        have hzf : ∃ full, F full ∧ z ++ now <+: full := by
          rcases hfull i _ h1'.crashed with h | ⟨x, h, full, hF, hx⟩
          · simp at h
          · simp at h; exact ⟨full, hF, by rwa [h]⟩
        obtain ⟨full, hF, hzf⟩ := hzf
        rcases hs with ⟨h3, -⟩ | ⟨y, h4, h5⟩
        · rw [h3 i] at hz; cases hz
        · obtain rfl : y = old := by rw [h4] at hold; exact Option.some.inj hold
          exact .inr ⟨writeAt y z.length now, by simp, patched_writeAt h5 hF hzf⟩
      · rcases hs with ⟨h3, h4⟩ | ⟨y, h4, h5⟩
        · refine .inl ⟨fun j => ?_, by simp [Function.update_of_ne hq, h4]⟩
          by_cases hj : j = i
          · subst hj; simp [Function.update_of_ne hq, h3]
          · simp [Function.update_of_ne hj, h3]
        · exact .inr ⟨y, by simp [Function.update_of_ne hq, h4], h5⟩

/-- At every moment a file is untouched, or is put together from what the programs write, with zeros for what was emptied. -/
theorem runs_patched {calls : ι → List FsOp} {fs₀ : Fs} {F : List UInt8 → Prop} {p : Path}
    (hfull : ∀ i o, Crashed (fun _ => none) (calls i) o → o p = none ∨ ∃ x, o p = some x ∧ ∃ full, F full ∧ x <+: full) {w : World ι} (hr : Turns (World.start fs₀ calls) w) :
    w.fs p = fs₀ p ∨ ∃ y, w.fs p = some y ∧ Patched F y := by
  suffices h : ∃ own, Owns calls w own ∧ (((∀ i, own i p = none) ∧ w.fs p = fs₀ p) ∨ ∃ y, w.fs p = some y ∧ Patched F y) by
    obtain ⟨_, _, h | h⟩ := h
    · exact .inl h.2
    · exact .inr h
  induction hr with
  | refl => exact ⟨fun _ _ => none, fun i => ⟨.between [] _ rfl, rfl⟩, .inl ⟨fun _ => rfl, rfl⟩⟩
  | tail _ ht ih =>
    obtain ⟨own, h1, h2⟩ := ih
    exact turn_patched hfull ht h1 h2

/-- A file no program writes to is never changed. -/
theorem runs_untouched {calls : ι → List FsOp} {fs₀ : Fs} {p : Path} (hno : ∀ i o, Crashed (fun _ => none) (calls i) o → o p = none) {w : World ι}
    (hr : Turns (World.start fs₀ calls) w) : w.fs p = fs₀ p := by
  obtain ⟨own, ho, hs⟩ := runs_shared (full := []) (fun i o h => .inl (hno i o h)) hr
  rcases hs with ⟨-, h⟩ | ⟨j, x, y, h, -⟩
  · exact h
  · rw [hno j _ (ho j).1.crashed] at h; cases h
end

end Verif.Model
