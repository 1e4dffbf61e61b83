import Verif.Spec.History
import Verif.Proofs.NoPanic
/-! Every reachable lattice keeps the invariant under which `set_text` behaves as on a fresh lattice; what the lattice contains after `set_text`. -/
namespace Verif.Model
open Verif.Spec

/-- Same capacity and same lengths of the index vectors. -/
def SameShape (l l' : Lattice) : Prop :=
  l'.capacity = l.capacity ∧ l'.startsAt.length = l.startsAt.length ∧ l'.endsAt.length = l.endsAt.length

theorem SameShape.trans {a b c : Lattice} (h : SameShape a b) (h' : SameShape b c) : SameShape a c :=
  ⟨h'.1.trans h.1, h'.2.1.trans h.2.1, h'.2.2.trans h.2.2⟩

theorem SameShape.latInv {l l' : Lattice} (h : SameShape l l') (hl : LatInv l) : LatInv l' :=
  ⟨by rw [h.2.1, h.2.2]; exact hl.same, by rw [h.2.1, h.1]; exact hl.size⟩

theorem pushAt_length {xs ys : List (List Nat)} {i x : Nat} (h : pushAt xs i x = .ok ys) : ys.length = xs.length := by
  unfold pushAt at h
  split at h
  · cases h; simp
  · cases h

theorem addEdgeInLattice_shape {l l' : Lattice} {e : Edge} (h : l.addEdgeInLattice e = .ok l') : SameShape l l' := by
  unfold Lattice.addEdgeInLattice at h
  simp only [bind_eq_ok] at h
  obtain ⟨s, hs, en, hen, h⟩ := h
  simp at h
  subst h
  exact ⟨rfl, pushAt_length hs, pushAt_length hen⟩

theorem addDictWords_shape {l : Lattice} {r : Lattice × Bool} {d : PrefixDict} {start : Nat} {s : Str} {found : Bool}
    (h : l.addDictWords d start s found = .ok r) : SameShape l r.1 := by
  unfold Lattice.addDictWords at h
  rw [bind_eq_ok] at h
  obtain ⟨ws, _, h⟩ := h
  refine foldlM_inv (fun _ st => SameShape l st.1) ?_ ws (l, found) r ⟨rfl, rfl, rfl⟩ h
  rintro ⟨pl, we⟩ rest ⟨l1, f1⟩ b' hP hf
  simp only [bind_eq_ok] at hf
  obtain ⟨_, _, l2, hl2, hf⟩ := hf
  simp at hf
  subst hf
  exact hP.trans (addEdgeInLattice_shape hl2)

theorem processUnknownWord_shape {l : Lattice} {r : Lattice × Option Nat} {cd : CharDefs} {unk : UnkDict} {cat ord : Nat} {ue : Option Nat}
    {start : Nat} {s : Str} {found : Bool} (h : l.processUnknownWord cd unk cat ord ue start s found = .ok r) :
    SameShape l r.1 := by
  unfold Lattice.processUnknownWord at h
  rw [bind_eq_ok] at h
  obtain ⟨n, _, h⟩ := h
  split at h
  · simp only [bind_eq_ok] at h
    obtain ⟨ids, _, l2, hl2, h⟩ := h
    simp at h
    subst h
    refine foldlM_inv (fun _ st => SameShape l st) ?_ ids l l2 ⟨rfl, rfl, rfl⟩ hl2
    intro x rest b b' hP hf
    rw [bind_eq_ok] at hf
    obtain ⟨_, _, hf⟩ := hf
    exact hP.trans (addEdgeInLattice_shape hf)
  · simp at h
    subst h
    exact ⟨rfl, rfl, rfl⟩

theorem addUserWords_shape {l : Lattice} {r : Lattice × Bool} {env : LatticeEnv} {start : Nat} {s : Str}
    (h : l.addUserWords env start s = .ok r) : SameShape l r.1 := by
  unfold Lattice.addUserWords at h
  split at h
  · exact addDictWords_shape h
  · cases h; exact ⟨rfl, rfl, rfl⟩

theorem addUnknownWords_shape {l : Lattice} {r : Lattice × Option Nat} {env : LatticeEnv} {ue : Option Nat} {start : Nat} {s : Str} {found : Bool}
    (h : l.addUnknownWords env ue start s found = .ok r) : SameShape l r.1 := by
  unfold Lattice.addUnknownWords at h
  split at h
  · cases h; exact ⟨rfl, rfl, rfl⟩
  · rw [bind_eq_ok] at h
    obtain ⟨cats, _, h⟩ := h
    refine foldlM_inv (fun _ st => SameShape l st.1) ?_ _ (l, ue) r ⟨rfl, rfl, rfl⟩ h
    intro x rest b b' hP hf
    exact hP.trans (processUnknownWord_shape hf)

theorem scanStep_shape {env : LatticeEnv} {text : Str} {st st' : Lattice × Option Nat} {start : Nat}
    (h : Lattice.scanStep env text st start = .ok st') : SameShape st.1 st'.1 := by
  unfold Lattice.scanStep at h
  simp only at h
  rw [bind_eq_ok] at h
  obtain ⟨ends, _, h⟩ := h
  split at h
  · simp at h; subst h; exact ⟨rfl, rfl, rfl⟩
  · simp only [bind_eq_ok] at h
    obtain ⟨suffix, _, r1, h1, r2, h2, h⟩ := h
    have hs := (addUserWords_shape h1).trans (addDictWords_shape h2)
    split at h
    · exact hs.trans (addUnknownWords_shape h)
    · simp at h; subst h; exact hs

theorem setCapacity_latInv {l : Lattice} (h : LatInv l) (n : Nat) : LatInv (l.setCapacity n) := by
  have h1 := h.same
  have h2 := h.size
  unfold Lattice.setCapacity Lattice.clear
  simp only
  split
  · rename_i hlt
    refine ⟨?_, .inl ?_⟩ <;> simp [resize] <;> omega
  · refine ⟨by simpa using h1, by simpa using h2⟩

theorem setText_latInv {l l' : Lattice} {env : LatticeEnv} {text : Str} (hl : LatInv l)
    (h : l.setText env text = .ok l') : LatInv l' := by
  unfold Lattice.setText at h
  simp only at h
  split at h
  · cases h
  · simp only [bind_eq_ok] at h
    obtain ⟨en, hen, st, hst, r, hr, h⟩ := h
    simp at h
    subst h
    have h0 := setCapacity_latInv hl (blen text)
    have h1 : SameShape (l.setCapacity (blen text)) r.1 := by
      refine foldlM_inv (fun _ st => SameShape (l.setCapacity (blen text)) st.1) ?_ _ _ r ?_ hr
      · intro x rest b b' hP hf
        exact hP.trans (scanStep_shape hf)
      · exact ⟨rfl, pushAt_length hst, pushAt_length hen⟩
    exact h1.latInv h0

theorem relax_shape {m : ConnMatrix} {mode : Mode} {ids : List Nat} {l l' : Lattice} {r : Nat}
    (h : Lattice.relax m mode ids l r = .ok l') : SameShape l l' := by
  unfold Lattice.relax at h
  simp only [bind_eq_ok] at h
  obtain ⟨_, _, _, _, h⟩ := h
  split at h <;> · simp at h; subst h; exact ⟨rfl, rfl, rfl⟩

theorem calculatePathCosts_shape {m : ConnMatrix} {mode : Mode} {l l' : Lattice}
    (h : l.calculatePathCosts m mode = .ok l') : SameShape l l' := by
  unfold Lattice.calculatePathCosts at h
  refine foldlM_inv (fun _ st => SameShape l st) ?_ _ l l' ⟨rfl, rfl, rfl⟩ h
  intro x rest b b' hP hf
  simp only [bind_eq_ok] at hf
  obtain ⟨_, _, ids, _, hf⟩ := hf
  refine foldlM_inv (fun _ st => SameShape l st) ?_ ids b b' hP hf
  intro y rest c c' hP hf
  exact hP.trans (relax_shape hf)

theorem _root_.Verif.Spec.History.latInv {l : Lattice} (h : History l) : LatInv l := by
  induction h with
  | fresh => exact latInv_default
  | clear _ ih => exact ⟨by simpa [Lattice.clear] using ih.same, by simpa [Lattice.clear] using ih.size⟩
  | setText _ _ _ hs ih => exact setText_latInv ih hs
  | costs _ _ _ hs ih => exact (calculatePathCosts_shape hs).latInv ih

theorem Scan.truncate {env : LatticeEnv} {text : Str} {k : Nat} {R : Nat → Prop} {l : Option Nat}
    (h : Scan env text k R l) : ∀ j, j ≤ k → ∃ R' l', Scan env text j R' l' := by
  induction h with
  | start => intro j hj; have : j = 0 := by omega
             subst this; exact ⟨_, _, .start⟩
  | @skip k reach latest h hn ih =>
    intro j hj
    rcases Nat.lt_or_ge k j with hlt | hge
    · have : j = k + 1 := by omega
      subst this; exact ⟨_, _, .skip h hn⟩
    · exact ih j hge
  | @closed k reach latest pre rest h hr ht hb ho ih =>
    intro j hj
    rcases Nat.lt_or_ge k j with hlt | hge
    · have : j = k + 1 := by omega
      subst this; exact ⟨_, _, .closed h hr ht hb ho⟩
    · exact ih j hge
  | @opened k reach latest pre rest proposal h hr ht hb ho hp ih =>
    intro j hj
    rcases Nat.lt_or_ge k j with hlt | hge
    · have : j = k + 1 := by omega
      subst this; exact ⟨_, _, .opened h hr ht hb ho hp⟩
    · exact ih j hge

/-- What the lattice holds after `set_text`. -/
theorem setText_edges {l l' : Lattice} (hl : LatInv l) {env : LatticeEnv} {text : Str} (ht : text ≠ [])
    (h : l.setText env text = .ok l') :
    ∃ es ue, l'.edges = Edge.default :: Edge.default :: es ∧ ScanInv env text (blen text) es ue := by
  rw [setText_eq hl env ht, bind_eq_ok] at h
  obtain ⟨es, hg, h⟩ := h
  simp at h
  subst h
  obtain ⟨ue, hI⟩ := gen_inv hg
  exact ⟨es, ue, rfl, hI⟩

end Verif.Model
