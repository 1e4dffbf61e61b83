import Verif.Model.Basic
import Mathlib.Data.List.Forall2
/-! Lemmas about the result monad `R` and loops in it. -/
namespace Verif.Model

@[simp] theorem bind_ok {α β : Type} (a : α) (f : α → R β) : ((Except.ok a : R α) >>= f) = f a := rfl
@[simp] theorem bind_error {α β : Type} (e : Fail) (f : α → R β) :
    ((Except.error e : R α) >>= f) = Except.error e := rfl
@[simp] theorem orPanic_some {α : Type} (a : α) : orPanic (some a) = .ok a := rfl
@[simp] theorem orPanic_none {α : Type} : orPanic (none : Option α) = .error .panic := rfl
@[simp] theorem pure_eq_ok {α : Type} (a : α) : (pure a : R α) = .ok a := rfl

theorem orPanic_eq_ok {α : Type} {o : Option α} {a : α} : orPanic o = .ok a ↔ o = some a := by
  cases o <;> simp [orPanic]

theorem bind_eq_ok {α β : Type} {x : R α} {f : α → R β} {b : β} :
    (x >>= f) = .ok b ↔ ∃ a, x = .ok a ∧ f a = .ok b := by
  cases x with
  | error e => simp
  | ok a => simp

/-- Invariant rule for a loop over a list that returned normally. `P` relates the elements still to do to the state. -/
theorem foldlM_inv {α β : Type} {f : β → α → R β} (P : List α → β → Prop)
    (step : ∀ x rest b b', P (x :: rest) b → f b x = .ok b' → P rest b') :
    ∀ (xs : List α) (b b' : β), P xs b → xs.foldlM f b = .ok b' → P [] b' := by
  intro xs
  induction xs with
  | nil => intro b b' hP h; simp at h; subst h; exact hP
  | cons x xs ih =>
    intro b b' hP h
    rw [List.foldlM_cons, bind_eq_ok] at h
    obtain ⟨b1, h1, h2⟩ := h
    exact ih b1 b' (step x xs b b1 hP h1) h2

/-- Totality rule for a loop over a list: if each iteration returns and keeps the invariant, so does the loop. -/
theorem foldlM_total {α β : Type} {f : β → α → R β} (P : List α → β → Prop)
    (step : ∀ x rest b, P (x :: rest) b → ∃ b', f b x = .ok b' ∧ P rest b') :
    ∀ (xs : List α) (b : β), P xs b → ∃ b', xs.foldlM f b = .ok b' ∧ P [] b' := by
  intro xs
  induction xs with
  | nil => intro b hP; exact ⟨b, rfl, hP⟩
  | cons x xs ih =>
    intro b hP
    obtain ⟨b1, h1, hP1⟩ := step x xs b hP
    obtain ⟨b2, h2, hP2⟩ := ih b1 hP1
    exact ⟨b2, by rw [List.foldlM_cons, h1]; exact h2, hP2⟩

/-- Invariant rule for `for i in 0..n`. -/
theorem foldlM_range_inv {β : Type} {f : β → Nat → R β} (n : Nat) (P : Nat → β → Prop)
    (step : ∀ i b b', i < n → P i b → f b i = .ok b' → P (i + 1) b') (b b' : β) (h0 : P 0 b)
    (h : (List.range n).foldlM f b = .ok b') : P n b' := by
  have key : ∀ k, k ≤ n → ∀ c c', P (n - k) c → (List.range' (n - k) k).foldlM f c = .ok c' → P n c' := by
    intro k
    induction k with
    | zero => intro _ c c' hP h; simp at h; subst h; simpa using hP
    | succ k ih =>
      intro hk c c' hP h
      rw [List.range'_succ, List.foldlM_cons, bind_eq_ok] at h
      obtain ⟨c1, h1, h2⟩ := h
      have e : n - (k + 1) + 1 = n - k := by omega
      rw [e] at h2
      exact ih (by omega) c1 c' (e ▸ step _ _ _ (by omega) hP h1) h2
  have := key n (Nat.le_refl n) b b'
  simp only [Nat.sub_self, ← List.range_eq_range'] at this
  exact this h0 h

/-- Totality rule for `for i in 0..n`. -/
theorem foldlM_range_total {β : Type} {f : β → Nat → R β} (n : Nat) (P : Nat → β → Prop)
    (step : ∀ i b, i < n → P i b → ∃ b', f b i = .ok b' ∧ P (i + 1) b') (b : β) (h0 : P 0 b) :
    ∃ b', (List.range n).foldlM f b = .ok b' ∧ P n b' := by
  have key : ∀ k, k ≤ n → ∀ c, P (n - k) c →
      ∃ c', (List.range' (n - k) k).foldlM f c = .ok c' ∧ P n c' := by
    intro k
    induction k with
    | zero => intro _ c hP; exact ⟨c, by simp, by simpa using hP⟩
    | succ k ih =>
      intro hk c hP
      obtain ⟨c1, h1, hP1⟩ := step _ c (by omega) hP
      have e : n - (k + 1) + 1 = n - k := by omega
      obtain ⟨c2, h2, hP2⟩ := ih (by omega) c1 (e ▸ hP1)
      refine ⟨c2, ?_, hP2⟩
      rw [List.range'_succ, List.foldlM_cons, h1, e]
      exact h2
  have := key n (Nat.le_refl n) b
  simp only [Nat.sub_self, ← List.range_eq_range'] at this
  exact this h0

theorem mapM_ok_length {α β : Type} {f : α → R β} {xs : List α} {ys : List β}
    (h : xs.mapM f = .ok ys) : ys.length = xs.length := by
  induction xs generalizing ys with
  | nil => simp at h; subst h; rfl
  | cons x xs ih =>
    rw [List.mapM_cons, bind_eq_ok] at h
    obtain ⟨y, _, h⟩ := h
    rw [bind_eq_ok] at h
    obtain ⟨zs, hz, h⟩ := h
    simp at h
    subst h
    simp [ih hz]

/-- `mapM` that returned normally is an elementwise relation. -/
theorem mapM_ok_iff {α β : Type} {f : α → R β} {xs : List α} {ys : List β} :
    xs.mapM f = .ok ys ↔ List.Forall₂ (fun x y => f x = .ok y) xs ys := by
  induction xs generalizing ys with
  | nil =>
    simp only [List.mapM_nil, pure_eq_ok, Except.ok.injEq]
    constructor
    · rintro rfl; exact .nil
    · intro h; cases h; rfl
  | cons x xs ih =>
    rw [List.mapM_cons, bind_eq_ok]
    constructor
    · rintro ⟨y, hy, h⟩
      rw [bind_eq_ok] at h
      obtain ⟨zs, hz, h⟩ := h
      simp at h
      subst h
      exact .cons hy (ih.mp hz)
    · intro h
      cases h with
      | cons hy hz => exact ⟨_, hy, by rw [ih.mpr hz]; rfl⟩

theorem mapM_total {α β : Type} {f : α → R β} {xs : List α} (h : ∀ x ∈ xs, ∃ y, f x = .ok y) :
    ∃ ys, xs.mapM f = .ok ys := by
  induction xs with
  | nil => exact ⟨[], rfl⟩
  | cons x xs ih =>
    obtain ⟨y, hy⟩ := h x (by simp)
    obtain ⟨ys, hys⟩ := ih (fun z hz => h z (by simp [hz]))
    exact ⟨y :: ys, by rw [List.mapM_cons, hy, bind_ok, hys]; rfl⟩

theorem mem_of_mapM_ok {α β : Type} {f : α → R β} {xs : List α} {ys : List β}
    (h : xs.mapM f = .ok ys) {y : β} (hy : y ∈ ys) : ∃ x ∈ xs, f x = .ok y := by
  rw [mapM_ok_iff] at h
  induction h with
  | nil => simp at hy
  | cons hxy _ ih =>
    rcases List.mem_cons.mp hy with rfl | hy
    · exact ⟨_, by simp, hxy⟩
    · obtain ⟨x, hx, hf⟩ := ih hy
      exact ⟨x, by simp [hx], hf⟩

theorem mem_mapM_ok {α β : Type} {f : α → R β} {xs : List α} {ys : List β}
    (h : xs.mapM f = .ok ys) {x : α} (hx : x ∈ xs) : ∃ y ∈ ys, f x = .ok y := by
  rw [mapM_ok_iff] at h
  induction h with
  | nil => simp at hx
  | cons hxy _ ih =>
    rcases List.mem_cons.mp hx with rfl | hx
    · exact ⟨_, by simp, hxy⟩
    · obtain ⟨y, hy, hf⟩ := ih hx
      exact ⟨y, by simp [hy], hf⟩

end Verif.Model
