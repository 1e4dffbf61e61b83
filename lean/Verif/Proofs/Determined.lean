import Verif.Spec.Language
import Verif.Proofs.Language
import Mathlib.Data.List.Induction
/-! There is at most one chosen segmentation. -/
namespace Verif.Model
open Verif.Spec

variable {L : Lexicon} {mode : Mode} {text : Str}

theorem lex_proposes_unique {rest : Str} {name name' : Str} {rank : Nat} {s s' : Str} (h : L.Proposes rest name rank s) (h' : L.Proposes rest name' rank s') :
    name = name' ∧ s = s' := by
  obtain ⟨c, tail, data, rfl, h1, h2, -, rfl⟩ := h
  obtain ⟨c', tail', data', he, h1', h2', -, rfl⟩ := h'
  cases he
  rw [h1] at h1'
  cases h1'
  rw [h2] at h2'
  cases h2'
  exact ⟨rfl, rfl⟩

theorem lex_lastProposal_unique {rest : Str} {k : Nat} {o o' : Option Nat} (h : L.LastProposal rest k o) (h' : L.LastProposal rest k o') : o = o' := by
  rcases h with ⟨n, r, s, hp, rfl, hm⟩ | ⟨rfl, hn⟩ <;> rcases h' with ⟨n', r', s', hp', rfl, hm'⟩ | ⟨rfl, hn'⟩
  · have : r = r' := Nat.le_antisymm (hm' _ _ _ hp) (hm _ _ _ hp')
    subst this
    rw [(lex_proposes_unique hp hp').2]
  · exact absurd ⟨_, _, _, hp⟩ hn'
  · exact absurd ⟨_, _, _, hp'⟩ hn
  · rfl

theorem lex_scan_unique {k : Nat} {R R' : Nat → Prop} {l l' : Option Nat} (h : L.Scan mode text k R l) (h' : L.Scan mode text k R' l') : l = l' ∧ ∀ p, R p ↔ R' p := by
  induction h generalizing R' l' with
  | start => cases h'; exact ⟨rfl, fun _ => Iff.rfl⟩
  | skip _ hn ih =>
    cases h' with
    | skip hs _ => exact ih hs
    | closed hs hr => exact absurd ((ih hs).2 _ |>.mpr hr) hn
    | opened hs hr => exact absurd ((ih hs).2 _ |>.mpr hr) hn
  | closed _ hr ht hp ho ih =>
    cases h' with
    | skip hs hn => exact absurd ((ih hs).2 _ |>.mp hr) hn
    | closed hs _ ht' hp' _ =>
      obtain ⟨rfl, hR⟩ := ih hs
      obtain ⟨-, rfl⟩ := prefix_unique (ht.symm.trans ht') (hp.trans hp'.symm)
      exact ⟨rfl, fun p => by simp only [hR]⟩
    | opened hs _ ht' hp' ho' _ =>
      obtain ⟨rfl, hR⟩ := ih hs
      exact absurd ho' ho
  | opened _ hr ht hp ho hl ih =>
    cases h' with
    | skip hs hn => exact absurd ((ih hs).2 _ |>.mp hr) hn
    | closed hs _ ht' hp' ho' =>
      obtain ⟨rfl, hR⟩ := ih hs
      exact absurd ho ho'
    | opened hs _ ht' hp' _ hl' =>
      obtain ⟨rfl, hR⟩ := ih hs
      obtain ⟨-, rfl⟩ := prefix_unique (ht.symm.trans ht') (hp.trans hp'.symm)
      rw [lex_lastProposal_unique hl hl']
      exact ⟨rfl, fun p => by simp only [hR]⟩

/-- The place and the text determine the word. -/
theorem lex_written_unique {rest : Str} {k : Nat} {latest : Option Nat} {v v' : Item} {p : Slot} (h : L.WrittenAt mode rest k latest v p) (h' : L.WrittenAt mode rest k latest v' p)
    (hs : v'.surface = v.surface) : v = v' := by
  cases p with
  | known i =>
    obtain ⟨-, -, h1⟩ := h
    obtain ⟨-, -, h2⟩ := h'
    rw [hs, h1] at h2
    exact Option.some.inj h2
  | unknown r i =>
    obtain ⟨-, name, s, l, hp, hl, rfl⟩ := h
    obtain ⟨-, name', s', l', hp', hl', rfl⟩ := h'
    obtain ⟨rfl, rfl⟩ := lex_proposes_unique hp hp'
    rw [hl] at hl'
    cases hl'
    rfl

theorem lex_usable_ne {pre : Str} {w : Item} (h : L.Usable mode text pre w) : w.surface ≠ [] := by
  obtain ⟨rest, -, -, -, -, hw | ⟨-, name, rank, s, l, ⟨c, tail, data, rfl, -, -, -, rfl⟩, -, -, rfl⟩⟩ := h
  · exact hw.2.1
  · simp [UnkLine.item, Lexicon.unknownText]

theorem lex_segFrom_surfaces {ws : List Item} : ∀ {pre : Str}, L.SegFrom mode text pre ws → pre ++ (ws.map (·.surface)).flatten = text ∧ ∀ w ∈ ws, w.surface ≠ [] := by
  induction ws with
  | nil => intro pre h; exact ⟨by simpa [Lexicon.SegFrom] using h, by simp⟩
  | cons w ws ih =>
    rintro pre ⟨hu, h⟩
    obtain ⟨h1, h2⟩ := ih h
    refine ⟨by simpa using h1, ?_⟩
    intro x hx
    rcases List.mem_cons.mp hx with rfl | hx
    · exact lex_usable_ne hu
    · exact h2 x hx

/-- Two different lists with the same total text of non-empty words differ before a common tail. -/
theorem common_tail : ∀ {xs ys : List Item}, xs ≠ ys → (xs.map (·.surface)).flatten = (ys.map (·.surface)).flatten → (∀ w ∈ xs, w.surface ≠ []) → (∀ w ∈ ys, w.surface ≠ []) →
    ∃ a v a' v' b, xs = a ++ v :: b ∧ ys = a' ++ v' :: b ∧ v ≠ v' := by
  intro xs
  induction xs using List.reverseRecOn with
  | nil =>
    intro ys hne hf _ hy
    exfalso
    cases ys with
    | nil => exact hne rfl
    | cons y ys =>
      simp only [List.map_nil, List.flatten_nil, List.map_cons, List.flatten_cons] at hf
      exact hy y (by simp) (List.append_eq_nil_iff.mp hf.symm).1
  | append_singleton xs x ih =>
    intro ys hne hf hx hy
    rcases List.eq_nil_or_concat ys with rfl | ⟨ys', y, rfl⟩
    · exfalso
      simp only [List.map_append, List.map_cons, List.map_nil, List.flatten_append, List.flatten_cons, List.flatten_nil, List.append_nil] at hf
      exact hx x (by simp) (List.append_eq_nil_iff.mp hf).2
    · rw [List.concat_eq_append] at *
      by_cases hxy : x = y
      · subst hxy
        have hf' : (xs.map (·.surface)).flatten = (ys'.map (·.surface)).flatten := by
          simp only [List.map_append, List.map_cons, List.map_nil, List.flatten_append, List.flatten_cons, List.flatten_nil, List.append_nil] at hf
          exact List.append_cancel_right hf
        obtain ⟨a, v, a', v', b, h1, h2, h3⟩ := ih (fun h => hne (by rw [h])) hf' (fun w hw => hx w (by simp [hw])) (fun w hw => hy w (by simp [hw]))
        exact ⟨a, v, a', v', b ++ [x], by rw [h1]; simp, by rw [h2]; simp, h3⟩
      · exact ⟨xs, x, ys', y, [], rfl, rfl, hxy⟩

/-- At most one segmentation of a sentence is chosen. -/
theorem chosen_unique {ws ws' : List Item} (h : L.Chosen mode text ws) (h' : L.Chosen mode text ws') : ws = ws' := by
  by_contra hne
  obtain ⟨hs1, hn1⟩ := lex_segFrom_surfaces h.segmentation
  obtain ⟨hs2, hn2⟩ := lex_segFrom_surfaces h'.segmentation
  rw [List.nil_append] at hs1 hs2
  obtain ⟨a, v, a', v', b, rfl, rfl, hv⟩ := common_tail hne (hs1.trans hs2.symm) hn1 hn2
  have hcost : L.cost mode (a ++ v :: b) = L.cost mode (a' ++ v' :: b) := Int.le_antisymm (h.cheapest _ h'.segmentation) (h'.cheapest _ h.segmentation)
  have k1 := h.keep a v b a' v' rfl h'.segmentation hcost.symm
  have k2 := h'.keep a' v' b a v rfl h.segmentation hcost
  rcases k1 with k1 | ⟨e1, rest, reach, latest, ht, hsc, p, hp, hall⟩
  · rcases k2 with k2 | ⟨e2, -⟩
    · omega
    · rw [e2] at k1; omega
  · rcases k2 with k2 | ⟨-, rest', reach', latest', ht', hsc', p', hp', hall'⟩
    · rw [e1] at k2; omega
    · have hpre : (a.map (·.surface)).flatten = (a'.map (·.surface)).flatten := by
        have := hs1.trans hs2.symm
        simp only [List.map_append, List.map_cons, List.flatten_append, List.flatten_cons, e1] at this
        exact List.append_cancel_right this
      rw [← hpre] at ht' hsc' hp' hall'
      have hr : rest' = rest := List.append_cancel_left (ht'.symm.trans ht)
      subst hr
      obtain ⟨rfl, -⟩ := lex_scan_unique hsc hsc'
      have := Slot.le_antisymm (hall p' hp') (hall' p hp)
      subst this
      exact hv (lex_written_unique hp hp' e1)

end Verif.Model
