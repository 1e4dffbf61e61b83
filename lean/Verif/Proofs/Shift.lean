import Verif.Proofs.History
/-! Tokenizing a sentence does not depend on the sentences before it, except for the offsets added. -/
namespace Verif.Model
open Verif.Spec

/-- Move a token by a number of bytes and a number of positions. -/
def Token.shift (bytes pos : Nat) (t : Token) : Token :=
  { t with byteStart := bytes + t.byteStart, byteEnd := bytes + t.byteEnd, position := pos + t.position }

/-- The part of the state visible in the result. -/
def TokState.out (st : TokState) : List Token × Nat × Nat := (st.tokens, st.position, st.bytePosition)

def shiftOut (st : TokState) (r : List Token × Nat × Nat) : List Token × Nat × Nat :=
  (st.tokens ++ r.1.map (Token.shift st.bytePosition st.position), st.position + r.2.1, st.bytePosition + r.2.2)

theorem emitTokens_shift (s : Str) (offs : List (Nat × WordId)) (st : TokState) (l : Lattice) (a : TokState) :
    (emitTokens s ⟨st.tokens ++ a.tokens.map (Token.shift st.bytePosition st.position), l, st.position + a.position,
        st.bytePosition + a.bytePosition⟩ offs).map TokState.out =
      ((emitTokens s a offs).map TokState.out).map (shiftOut st) := by
  induction offs generalizing a with
  | nil => simp [emitTokens, Except.map, TokState.out, shiftOut]
  | cons o offs ih =>
    obtain ⟨bs, w⟩ := o
    unfold emitTokens
    simp only
    cases sliceBytes s bs (tokenStop s offs) with
    | none => simp [Except.map]
    | some surface =>
      simp only [orPanic_some, bind_ok]
      rw [← ih]
      congr 2
      simp [Token.new, Token.shift, Nat.add_assoc]

/-- The fold over sentences, seen from any state. -/
theorem fold_shift {t : Tokenizer} {ss : List Str} (hne : ∀ s ∈ ss, s ≠ []) (st a b : TokState)
    (hb : b.out = shiftOut st a.out) (hla : LatInv a.lattice) (hlb : LatInv b.lattice) :
    (ss.foldlM t.sentenceStep b).map TokState.out = ((ss.foldlM t.sentenceStep a).map TokState.out).map (shiftOut st) := by
  induction ss generalizing a b with
  | nil => simp [Except.map, hb]
  | cons s ss ih =>
    rw [List.foldlM_cons, List.foldlM_cons]
    have hs := hne s (by simp)
    have key : (t.sentenceStep b s).map TokState.out = ((t.sentenceStep a s).map TokState.out).map (shiftOut st) := by
      rw [sentenceStep_eq t hla hs, sentenceStep_eq t hlb hs]
      cases sentenceOffsets t.env t.dictionary.costMatrix s with
      | error e => simp [Except.map]
      | ok r =>
        simp only [bind_ok]
        have := emitTokens_shift s r.2.2 st (latOf (max b.lattice.capacity (blen s)) (blen s) r.1 r.2.1)
          { a with lattice := latOf (max a.lattice.capacity (blen s)) (blen s) r.1 r.2.1 }
        rw [← this]
        congr 2
        obtain ⟨tb, lb, pb, bb⟩ := b
        simp only [TokState.out, shiftOut, Prod.mk.injEq] at hb
        obtain ⟨rfl, rfl, rfl⟩ := hb
        rfl
    cases ha : t.sentenceStep a s with
    | error e =>
      rw [ha] at key
      cases hbs : t.sentenceStep b s with
      | error e' => rw [hbs] at key; simp [Except.map] at key; simp [Except.map, key]
      | ok b' => rw [hbs] at key; simp [Except.map] at key
    | ok a' =>
      rw [ha] at key
      cases hbs : t.sentenceStep b s with
      | error e' => rw [hbs] at key; simp [Except.map] at key
      | ok b' =>
        rw [hbs] at key
        simp only [Except.map, Except.ok.injEq] at key
        simp only [bind_ok]
        exact ih (fun x hx => hne x (by simp [hx])) a' b' key (sentenceStep_spec hla hs ha).1
          (sentenceStep_spec hlb hs hbs).1

theorem foldlM_append_R {α β : Type} (f : β → α → R β) (xs ys : List α) (b : β) :
    (xs ++ ys).foldlM f b = (xs.foldlM f b >>= fun b' => ys.foldlM f b') := by
  rw [List.foldlM_append]

/-- Final state of a successful fold. -/
theorem fold_state {t : Tokenizer} {ss : List Str} (hne : ∀ s ∈ ss, s ≠ []) {st st' : TokState}
    (hl : LatInv st.lattice) (h : ss.foldlM t.sentenceStep st = .ok st') :
    LatInv st'.lattice ∧ st'.position = st.position + (st'.tokens.length - st.tokens.length) ∧
      st.tokens.length ≤ st'.tokens.length ∧
      ∃ segs : List (List Word), List.Forall₂ (SentenceResult t.env t.dictionary.costMatrix) ss segs ∧
      st'.bytePosition = st.bytePosition + blen (surfaces segs.flatten) := by
  induction ss generalizing st with
  | nil =>
    simp at h
    subst h
    exact ⟨hl, by simp, Nat.le_refl _, [], .nil, by simp⟩
  | cons s ss ih =>
    rw [List.foldlM_cons, bind_eq_ok] at h
    obtain ⟨st1, h1, h2⟩ := h
    obtain ⟨hl1, ws, hres, ht, hp, hb⟩ := sentenceStep_spec hl (hne s (by simp)) h1
    obtain ⟨hl', hp', hle, segs, hf, hb'⟩ := ih (fun x hx => hne x (by simp [hx])) hl1 h2
    have hlen : ∀ (b p : Nat) (ws : List Word), (tokensFor b p ws).length = ws.length := by
      intro b p ws
      induction ws generalizing b p with
      | nil => rfl
      | cons w ws ih => simp [tokensFor, ih]
    have h3 : st1.tokens.length = st.tokens.length + ws.length := by rw [ht]; simp [hlen]
    refine ⟨hl', by omega, by omega, ws :: segs, .cons hres hf, ?_⟩
    rw [hb', hb, List.flatten_cons, surfaces_append, blen_append]
    omega

end Verif.Model
