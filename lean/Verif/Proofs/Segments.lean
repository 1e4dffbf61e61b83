import Verif.Proofs.LatticeScan
/-! Facts about segmentations and their costs. -/
namespace Verif.Spec
open Verif.Model

/-- The text covered by a list of words. -/
def surfaces (ws : List Word) : Str := (ws.map (·.surface)).flatten

@[simp] theorem surfaces_nil : surfaces [] = [] := rfl
@[simp] theorem surfaces_append (a b : List Word) : surfaces (a ++ b) = surfaces a ++ surfaces b := by
  simp [surfaces]
@[simp] theorem surfaces_cons (w : Word) (b : List Word) : surfaces (w :: b) = w.surface ++ surfaces b := by
  simp [surfaces]

/-- `ws` segments the prefix `pre` of `text`, built from the left. -/
inductive SegTo (env : LatticeEnv) (text : Str) : Str → List Word → Prop where
  | nil : SegTo env text [] []
  | snoc {pre ws w} : SegTo env text pre ws → Usable env text pre w →
      SegTo env text (pre ++ w.surface) (ws ++ [w])

theorem SegTo.surfaces_eq {env : LatticeEnv} {text pre : Str} {ws : List Word}
    (h : SegTo env text pre ws) : surfaces ws = pre := by
  induction h with
  | nil => rfl
  | snoc _ _ ih => simp [ih]

theorem Usable.split {env : LatticeEnv} {text pre : Str} {w : Word} (h : Usable env text pre w) :
    w.surface ≠ [] ∧ ∃ post, text = pre ++ w.surface ++ post := by
  obtain ⟨rest, _, _, ht, _, hw⟩ := h
  obtain ⟨hne, post, hp⟩ := hw.ne
  exact ⟨hne, post, by rw [ht, ← hp, List.append_assoc]⟩

theorem SegTo.prefix {env : LatticeEnv} {text pre : Str} {ws : List Word}
    (h : SegTo env text pre ws) : pre <+: text := by
  cases h with
  | nil => exact List.nil_prefix
  | snoc _ hu => obtain ⟨_, post, hp⟩ := hu.split; exact ⟨post, hp.symm⟩

theorem segFrom_segTo {env : LatticeEnv} {text : Str} : ∀ {ws vs : List Word} {pre : Str},
    SegTo env text pre vs → SegFrom env text pre ws → SegTo env text text (vs ++ ws)
  | [], vs, pre, h, h' => by
    cases h'
    simpa using h
  | w :: ws, vs, pre, h, h' => by
    have := segFrom_segTo (.snoc h h'.1) h'.2
    simpa using this

theorem segTo_segFrom {env : LatticeEnv} {text pre : Str} {vs : List Word} (h : SegTo env text pre vs) :
    ∀ {ws : List Word}, SegFrom env text pre ws → SegFrom env text [] (vs ++ ws) := by
  induction h with
  | nil => intro ws h; simpa using h
  | snoc _ hu ih =>
    intro ws h
    have := ih (ws := _ :: ws) ⟨hu, h⟩
    simpa using this

theorem segmentation_iff {env : LatticeEnv} {text : Str} {ws : List Word} :
    Segmentation env text ws ↔ SegTo env text text ws := by
  constructor
  · intro h; simpa using segFrom_segTo .nil h
  · intro h
    have := segTo_segFrom h (ws := []) rfl
    simpa [Segmentation] using this

/-- The entry of the last word, `left` if there is none. -/
def lastEntry (left : WordEntry) (ws : List Word) : WordEntry := ((ws.map (·.entry)).getLast?).getD left

@[simp] theorem lastEntry_nil (left : WordEntry) : lastEntry left [] = left := rfl
@[simp] theorem lastEntry_snoc (left : WordEntry) (ws : List Word) (w : Word) :
    lastEntry left (ws ++ [w]) = w.entry := by simp [lastEntry]

/-- Cost of a list of words without the transition to what follows. -/
def inner (m : ConnMatrix) (mode : Mode) : WordEntry → List Word → Int
  | _, [] => 0
  | left, w :: ws => conn m left w.entry + w.entry.wordCost.toInt + penalty mode w.surface + inner m mode w.entry ws

theorem lastEntry_cons (left : WordEntry) (w : Word) (ws : List Word) :
    lastEntry left (w :: ws) = lastEntry w.entry ws := by
  cases ws with
  | nil => simp [lastEntry]
  | cons v vs => simp [lastEntry, List.getLast?_cons]

theorem costFrom_append (m : ConnMatrix) (mode : Mode) (left : WordEntry) (ws vs : List Word) :
    costFrom m mode left (ws ++ vs) = inner m mode left ws + costFrom m mode (lastEntry left ws) vs := by
  induction ws generalizing left with
  | nil => simp [inner]
  | cons w ws ih =>
    simp only [List.cons_append, costFrom, inner, ih, lastEntry_cons]
    omega

theorem cost_eq (m : ConnMatrix) (mode : Mode) (ws : List Word) :
    cost m mode ws = inner m mode .default ws + conn m (lastEntry .default ws) .default := by
  have := costFrom_append m mode .default ws []
  simpa [cost, costFrom] using this

theorem inner_snoc (m : ConnMatrix) (mode : Mode) (left : WordEntry) (ws : List Word) (w : Word) :
    inner m mode left (ws ++ [w]) =
      inner m mode left ws + conn m (lastEntry left ws) w.entry + w.entry.wordCost.toInt + penalty mode w.surface := by
  induction ws generalizing left with
  | nil => simp [inner]
  | cons v vs ih =>
    simp only [List.cons_append, inner, ih, lastEntry_cons]
    omega

/-- Start offset (from `k`) and word id of each word. -/
def offsetsFrom : Nat → List Word → List (Nat × WordId)
  | _, [] => []
  | k, w :: ws => (k, w.entry.wordId) :: offsetsFrom (k + blen w.surface) ws

theorem offsetsFrom_append (k : Nat) (a b : List Word) :
    offsetsFrom k (a ++ b) = offsetsFrom k a ++ offsetsFrom (k + blen (surfaces a)) b := by
  induction a generalizing k with
  | nil => simp [offsetsFrom]
  | cons w a ih => simp [offsetsFrom, ih, Nat.add_assoc]

/-! ### Bounds -/

theorem penalty_le (mode : Mode) (s : Str) : (penalty mode s).natAbs ≤ maxPenalty mode * (blen s / 3) := by
  cases mode with
  | normal => simp [penalty]
  | decompose p =>
    unfold penalty
    rw [show blen s / 3 = charCount s from rfl]
    simp only [maxPenalty]
    have hmul : ∀ (a t : Nat) (x : Int), x.natAbs ≤ max p.kanjiPenalty.toInt.natAbs p.otherPenalty.toInt.natAbs →
        (((a - t : Nat) : Int) * x).natAbs ≤ max p.kanjiPenalty.toInt.natAbs p.otherPenalty.toInt.natAbs * a := by
      intro a t x hx
      rw [Int.natAbs_mul, Int.natAbs_natCast, Nat.mul_comm]
      exact Nat.mul_le_mul hx (Nat.sub_le _ _)
    by_cases h1 : charCount s ≤ p.kanjiThreshold
    · rw [if_pos h1]; simp
    · rw [if_neg h1]
      by_cases h2 : List.all s isKanjiChar = true
      · rw [if_pos h2]; exact hmul _ _ _ (Nat.le_max_left _ _)
      · rw [if_neg h2]
        by_cases h3 : p.otherThreshold < charCount s
        · rw [if_pos h3]; exact hmul _ _ _ (Nat.le_max_right _ _)
        · rw [if_neg h3]; simp

theorem conn_le (m : ConnMatrix) (a b : WordEntry) : (conn m a b).natAbs ≤ 32768 := by
  unfold conn
  split
  · rename_i c hc
    unfold ConnMatrix.cost at hc
    simp only [bind_eq_ok] at hc
    obtain ⟨_, _, v, _, h⟩ := hc
    simp at h
    subst h
    have h1 := v.toInt_lt
    have h2 := v.le_toInt
    rw [Int16.toInt_toInt32]
    omega
  · simp

theorem wordCost_le (w : WordEntry) : w.wordCost.toInt.natAbs ≤ 32768 := by
  have h1 := w.wordCost.toInt_lt
  have h2 := w.wordCost.le_toInt
  omega

theorem div3_add (a b : Nat) : a / 3 + b / 3 ≤ (a + b) / 3 := by omega

theorem inner_le {m : ConnMatrix} {mode : Mode} {left : WordEntry} {ws : List Word}
    (hne : ∀ w ∈ ws, w.surface ≠ []) :
    (inner m mode left ws).natAbs ≤ 65536 * (surfaces ws).length + maxPenalty mode * (blen (surfaces ws) / 3) := by
  induction ws generalizing left with
  | nil => simp [inner]
  | cons w ws ih =>
    have h1 := conn_le m left w.entry
    have h2 := wordCost_le w.entry
    have h3 := penalty_le mode w.surface
    have h4 := ih (left := w.entry) (fun v hv => hne v (by simp [hv]))
    have h5 : 1 ≤ w.surface.length := by
      have := hne w (by simp)
      cases hs : w.surface with
      | nil => exact absurd hs this
      | cons => simp
    have h6 : maxPenalty mode * (blen w.surface / 3) + maxPenalty mode * (blen (surfaces ws) / 3)
        ≤ maxPenalty mode * ((blen w.surface + blen (surfaces ws)) / 3) := by
      rw [← Nat.mul_add]
      exact Nat.mul_le_mul (Nat.le_refl _) (div3_add _ _)
    simp only [inner, surfaces_cons, List.length_append, blen_append]
    generalize maxPenalty mode * (blen w.surface / 3) = x at *
    generalize maxPenalty mode * (blen (surfaces ws) / 3) = y at *
    generalize maxPenalty mode * ((blen w.surface + blen (surfaces ws)) / 3) = z at *
    omega

theorem SegTo.words_ne {env : LatticeEnv} {text pre : Str} {ws : List Word}
    (h : SegTo env text pre ws) : ∀ w ∈ ws, w.surface ≠ [] := by
  induction h with
  | nil => simp
  | snoc _ hu ih =>
    intro w hw
    rcases List.mem_append.mp hw with hw | hw
    · exact ih w hw
    · simp at hw; subst hw; exact hu.split.1

/-- Every partial cost plus one more transition is within `i32`. -/
theorem SegTo.bound {env : LatticeEnv} {text pre : Str} {ws : List Word} (m : ConnMatrix) (mode : Mode)
    (h : SegTo env text pre ws) (hno : NoOverflow mode text) (x : Int) (hx : x.natAbs ≤ 32768) :
    -2 ^ 31 ≤ inner m mode .default ws + x ∧ inner m mode .default ws + x < 2 ^ 31 := by
  have h1 := inner_le (m := m) (mode := mode) (left := .default) h.words_ne
  rw [h.surfaces_eq] at h1
  obtain ⟨post, rfl⟩ := h.prefix
  unfold NoOverflow at hno
  have h2 : maxPenalty mode * (blen pre / 3) ≤ maxPenalty mode * (blen (pre ++ post) / 3) := by
    apply Nat.mul_le_mul (Nat.le_refl _)
    rw [blen_append]; omega
  rw [List.length_append] at hno
  generalize maxPenalty mode * (blen pre / 3) = a at *
  generalize maxPenalty mode * (blen (pre ++ post) / 3) = b at *
  omega

/-- The costs of all beginnings of segmentations, plus one more transition, are within `i32`. -/
def InRange (env : LatticeEnv) (m : ConnMatrix) (text : Str) : Prop :=
  ∀ pre ws, SegTo env text pre ws → ∀ x : Int, x.natAbs ≤ 32768 → -2 ^ 31 ≤ inner m env.mode .default ws + x ∧ inner m env.mode .default ws + x < 2 ^ 31

theorem NoOverflow.inRange {env : LatticeEnv} {m : ConnMatrix} {text : Str} (h : NoOverflow env.mode text) : InRange env m text :=
  fun _ _ hs x hx => hs.bound m env.mode h x hx

theorem inner_costBefore {m : ConnMatrix} {mode : Mode} : ∀ {ws : List Word} {left : WordEntry}, inner m mode left ws = costBefore m mode left ws
  | [], _ => rfl
  | _ :: _, _ => by simp only [inner, costBefore, inner_costBefore]

theorem SegTo.begins {env : LatticeEnv} {text pre : Str} {ws : List Word} (h : SegTo env text pre ws) : Begins env text ws := by
  induction h with
  | nil => intro a w b e; simp at e
  | @snoc pre ws w hs hu ih =>
    intro a w' b e
    rcases List.eq_nil_or_concat b with rfl | ⟨b', x, rfl⟩
    · obtain ⟨rfl, e'⟩ := List.append_inj' e rfl
      simp only [List.cons.injEq, and_true] at e'
      subst e'
      rw [← hs.surfaces_eq] at hu
      exact hu
    · rw [List.concat_eq_append, ← List.cons_append, ← List.append_assoc] at e
      exact ih a w' b' (List.append_inj' e rfl).1

theorem segTo_of_begins {env : LatticeEnv} {text : Str} {ws : List Word} (h : Begins env text ws) : SegTo env text (surfaces ws) ws := by
  have go : ∀ (ws a : List Word), SegTo env text (surfaces a) a → Begins env text (a ++ ws) → SegTo env text (surfaces (a ++ ws)) (a ++ ws) := by
    intro ws
    induction ws with
    | nil => intro a ha _; rw [List.append_nil]; exact ha
    | cons w ws ih =>
      intro a ha hb
      have h1 := SegTo.snoc ha (hb a w ws rfl)
      have h2 : surfaces (a ++ [w]) = surfaces a ++ w.surface := by simp [surfaces]
      rw [← h2] at h1
      have := ih (a ++ [w]) h1 (by simpa using hb)
      simpa using this
  exact go ws [] .nil h

theorem CostsFit.inRange {env : LatticeEnv} {m : ConnMatrix} {text : Str} (h : CostsFit env m text) : InRange env m text := by
  intro pre ws hs x hx
  have := h ws hs.begins
  rw [inner_costBefore]
  omega

/-- The costs of a short sentence fit. -/
theorem fit_of_short {env : LatticeEnv} {m : ConnMatrix} {text : Str} (h : NoOverflow env.mode text) : CostsFit env m text := by
  intro ws hb
  have h1 := NoOverflow.inRange (m := m) h _ ws (segTo_of_begins hb)
  rw [inner_costBefore] at h1
  have h2 := h1 32768 (by decide)
  have h3 := h1 (-32768) (by decide)
  omega

end Verif.Spec
