import Verif.Proofs.Monad
import Verif.Model.Tokenizer
/-! Tokenizing with a connection matrix that was cut short. -/
namespace Verif.Model

/-- `x` is `y` or a panic. -/
def OrPanics {α : Type} (x y : R α) : Prop := x = y ∨ x = .error .panic

namespace OrPanics
variable {α β : Type}

theorem rfl' (x : R α) : OrPanics x x := .inl rfl

theorem bind {x y : R α} {f g : α → R β} (h : OrPanics x y) (hf : ∀ a, OrPanics (f a) (g a)) : OrPanics (x >>= f) (y >>= g) := by
  rcases h with rfl | rfl
  · cases x with
    | error e => exact .inl rfl
    | ok a => exact hf a
  · exact .inr rfl

theorem foldlM {f g : β → α → R β} (h : ∀ b a, OrPanics (f b a) (g b a)) (xs : List α) (b : β) : OrPanics (xs.foldlM f b) (xs.foldlM g b) := by
  induction xs generalizing b with
  | nil => exact .inl rfl
  | cons x xs ih =>
    rw [List.foldlM_cons, List.foldlM_cons]
    exact (h b x).bind fun b' => ih b'

theorem mapM {f g : α → R β} (h : ∀ a, OrPanics (f a) (g a)) (xs : List α) : OrPanics (xs.mapM f) (xs.mapM g) := by
  induction xs with
  | nil => exact .inl rfl
  | cons x xs ih =>
    rw [List.mapM_cons, List.mapM_cons]
    exact (h x).bind fun b => ih.bind fun bs => rfl' _

end OrPanics

/-- The costs of `m'` are those of `m`, or missing. -/
def CutOf (m' m : ConnMatrix) : Prop := ∀ f b, OrPanics (m'.cost f b) (m.cost f b)

theorem CutOf.costs {m' m : ConnMatrix} (h : CutOf m' m) (mode : Mode) (l : Lattice) :
    OrPanics (l.calculatePathCosts m' mode) (l.calculatePathCosts m mode) := by
  unfold Lattice.calculatePathCosts
  refine OrPanics.foldlM (fun l i => (OrPanics.rfl' _).bind fun leftIds => (OrPanics.rfl' _).bind fun rightIds => ?_) _ _
  refine OrPanics.foldlM (fun l r => ?_) _ _
  unfold Lattice.relax
  refine (OrPanics.rfl' _).bind fun right => OrPanics.bind (OrPanics.mapM (fun leftId => ?_) _) fun costs => OrPanics.rfl' _
  unfold Lattice.leftCost
  exact (OrPanics.rfl' _).bind fun left => (h _ _).bind fun c => OrPanics.rfl' _

theorem CutOf.tokenize {m' m : ConnMatrix} (h : CutOf m' m) (d : Dictionary) (user : Option UserDictionary) (mode : Mode) (text : Str) :
    OrPanics (Tokenizer.tokenize ⟨{ d with costMatrix := m' }, user, mode⟩ text) (Tokenizer.tokenize ⟨{ d with costMatrix := m }, user, mode⟩ text) := by
  unfold Tokenizer.tokenize
  refine OrPanics.bind (OrPanics.foldlM (fun st s => ?_) _ _) fun st => OrPanics.rfl' _
  unfold Tokenizer.sentenceStep
  exact (OrPanics.rfl' _).bind fun l => (h.costs mode l).bind fun l => OrPanics.rfl' _

theorem readU16_take {xs ys : List UInt8} (h : xs <+: ys) : readU16 xs = readU16 ys ∨ readU16 xs = none := by
  obtain ⟨t, rfl⟩ := h
  match xs with
  | [] => exact .inr rfl
  | [_] => exact .inr rfl
  | _ :: _ :: _ => exact .inl rfl

/-- A cut matrix file does not load, or its costs are right or missing. -/
theorem cut_load {x full : List UInt8} {m : ConnMatrix} (hx : x <+: full) (hm : ConnMatrix.load full = .ok m) :
    (x.length < 4 ∧ ConnMatrix.load x = .error .panic) ∨ (4 ≤ x.length ∧ ∃ m', ConnMatrix.load x = .ok m' ∧ CutOf m' m) := by
  rcases Nat.lt_or_ge x.length 4 with hl | hl
  · left
    refine ⟨hl, ?_⟩
    unfold ConnMatrix.load byteSlice
    rw [if_neg (by omega)]
    rfl
  · right
    refine ⟨hl, ?_⟩
    obtain ⟨t, rfl⟩ := hx
    have hl' : 4 ≤ (x ++ t).length := by simp; omega
    have h4 : (x ++ t).drop 4 = x.drop 4 ++ t := List.drop_append_of_le_length hl
    have h2 : ((x ++ t).drop 2).take (4 - 2) = (x.drop 2).take (4 - 2) := by
      rw [List.drop_append_of_le_length (by omega), List.take_append_of_le_length (by simp; omega)]
    unfold ConnMatrix.load byteSlice byteDrop at hm ⊢
    rw [if_pos ⟨by omega, hl'⟩, if_pos hl', h2, h4] at hm
    rw [if_pos ⟨by omega, hl⟩, if_pos hl]
    simp only [orPanic_some, bind_ok, pure_eq_ok] at hm ⊢
    cases hr : readI16 ((x.drop 2).take (4 - 2)) with
    | none => rw [hr] at hm; simp at hm
    | some n =>
      rw [hr] at hm
      simp only [orPanic_some, bind_ok, Except.ok.injEq] at hm ⊢
      subst hm
      refine ⟨_, rfl, fun f b => ?_⟩
      unfold ConnMatrix.cost
      dsimp only
      generalize (b + f * n.toInt32.toUInt32).toNat * 2 = i
      unfold byteDrop
      by_cases hi : i ≤ (x.drop 4).length
      · rw [if_pos hi, if_pos (by simp at hi ⊢; omega)]
        simp only [orPanic_some, bind_ok]
        unfold readI16
        rw [List.drop_append_of_le_length hi]
        rcases readU16_take (List.prefix_append ((x.drop 4).drop i) t) with h | h
        · rw [h]; exact .inl rfl
        · rw [h]; exact .inr rfl
      · rw [if_neg hi]; exact .inr rfl

end Verif.Model
