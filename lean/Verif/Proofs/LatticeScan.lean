import Verif.Proofs.LatticeWords
/-! The scan of `set_text` follows the specification's left-to-right scan. -/
namespace Verif.Spec
open Verif.Model

theorem DictWordAt.ne {env : LatticeEnv} {rest : Str} {w : Word} (h : DictWordAt env rest w) :
    w.surface ≠ [] ∧ w.surface <+: rest := ⟨h.1, h.2.1⟩

theorem unknownText_prefix (cd : CharDefs) (cat ord : Nat) (group : Bool) (rest : Str) :
    unknownText cd cat ord group rest <+: rest := by
  cases rest with
  | nil => exact List.prefix_refl _
  | cons c cs =>
    unfold unknownText
    cases group
    · simp
    · simp only [if_true, List.cons_prefix_cons, true_and]
      exact List.takeWhile_prefix _

theorem Proposes.ne {env : LatticeEnv} {rest : Str} {cat ord : Nat} {s : Str}
    (h : Proposes env rest cat ord s) : s ≠ [] ∧ s <+: rest := by
  obtain ⟨c, tail, cats, data, hr, _, _, _, _, rfl⟩ := h
  refine ⟨?_, unknownText_prefix ..⟩
  subst hr
  simp [unknownText]

theorem UnknownWordAt.ne {env : LatticeEnv} {rest : Str} {w : Word} (h : UnknownWordAt env rest w) :
    w.surface ≠ [] ∧ w.surface <+: rest := by
  obtain ⟨_, _, _, _, hp, _⟩ := h
  exact hp.ne

theorem WordAt.ne {env : LatticeEnv} {rest : Str} {k : Nat} {latest : Option Nat} {w : Word}
    (h : WordAt env rest k latest w) : w.surface ≠ [] ∧ w.surface <+: rest := by
  rcases h with h | ⟨_, h⟩
  · exact h.ne
  · exact h.ne

theorem LastProposal.unique {env : LatticeEnv} {rest : Str} {k : Nat} {o o' : Option Nat}
    (h : LastProposal env rest k o) (h' : LastProposal env rest k o') : o = o' := by
  rcases h with ⟨cat, ord, s, hp, rfl, hmax⟩ | ⟨rfl, hno⟩
  · rcases h' with ⟨cat', ord', s', hp', rfl, hmax'⟩ | ⟨rfl, hno'⟩
    · have hord : ord = ord' := Nat.le_antisymm (hmax' _ _ _ hp) (hmax _ _ _ hp')
      subst hord
      obtain ⟨c, t, cats, data, e1, hc, hcat, hd, _, hs⟩ := hp
      obtain ⟨c', t', cats', data', e1', hc', hcat', hd', _, hs'⟩ := hp'
      rw [e1] at e1'
      cases e1'
      rw [hc] at hc'; cases hc'
      rw [hcat] at hcat'; cases hcat'
      rw [hd] at hd'; cases hd'
      rw [hs, hs']
    · exact absurd ⟨cat, ord, s, hp⟩ hno'
  · rcases h' with ⟨cat', ord', s', hp', rfl, hmax'⟩ | ⟨rfl, hno'⟩
    · exact absurd ⟨cat', ord', s', hp'⟩ hno
    · rfl

/-- The scan is deterministic. -/
theorem Scan.unique {env : LatticeEnv} {text : Str} {k : Nat} {R R' : Nat → Prop} {l l' : Option Nat}
    (h : Scan env text k R l) (h' : Scan env text k R' l') : l = l' ∧ ∀ p, R p ↔ R' p := by
  induction h generalizing R' l' with
  | start => cases h'; exact ⟨rfl, fun _ => Iff.rfl⟩
  | skip _ hn ih =>
    cases h' with
    | skip hs' hn' => exact ih hs'
    | closed hs' hr' => exact absurd ((ih hs').2 _ |>.mpr hr') hn
    | opened hs' hr' => exact absurd ((ih hs').2 _ |>.mpr hr') hn
  | closed _ hr ht hb hno ih =>
    cases h' with
    | skip hs' hn' => exact absurd ((ih hs').2 _ |>.mp hr) hn'
    | closed hs' hr' ht' hb' hno' =>
      obtain ⟨rfl, hR⟩ := ih hs'
      obtain ⟨rfl, rfl⟩ := prefix_unique (ht.symm.trans ht') (hb.trans hb'.symm)
      exact ⟨rfl, fun p => or_congr (hR p) Iff.rfl⟩
    | opened hs' hr' ht' hb' ho' =>
      obtain ⟨rfl, hR⟩ := ih hs'
      exact absurd ho' hno
  | opened _ hr ht hb ho hp ih =>
    cases h' with
    | skip hs' hn' => exact absurd ((ih hs').2 _ |>.mp hr) hn'
    | closed hs' hr' ht' hb' hno' =>
      obtain ⟨rfl, hR⟩ := ih hs'
      exact absurd ho hno'
    | opened hs' hr' ht' hb' ho' hp' =>
      obtain ⟨rfl, hR⟩ := ih hs'
      obtain ⟨rfl, rfl⟩ := prefix_unique (ht.symm.trans ht') (hb.trans hb'.symm)
      rw [hp.unique hp']
      exact ⟨rfl, fun p => or_congr (hR p) Iff.rfl⟩

end Verif.Spec

namespace Verif.Model
open Verif.Spec

theorem unknownAllowed_iff {mode : Mode} {ue : Option Nat} {k : Nat} :
    unknownAllowed mode ue k = true ↔ unknownOpen mode ue k := by
  unfold unknownAllowed unknownOpen
  cases mode <;> cases ue <;> simp [Mode.isSearch]

/-- Words that may be used, with the kind of edge they get. -/
def TypedWordAt (env : LatticeEnv) (rest : Str) (k : Nat) (latest : Option Nat) (t : EdgeType) (w : Word) : Prop :=
  (t = .known ∧ DictWordAt env rest w) ∨
  (t = .unknown ∧ unknownOpen env.mode latest k ∧ UnknownWordAt env rest w)

theorem newEdges_spec {env : LatticeEnv} {start : Nat} {suffix : Str} {ue ue' : Option Nat}
    {new : List Edge} (h : newEdges env start suffix ue = .ok (new, ue')) :
    (∀ e, e ∈ new ↔ ∃ t w, TypedWordAt env suffix start ue t w ∧
        e = wordEdge t w.entry start w.surface) ∧
    (unknownOpen env.mode ue start → ∃ o, LastProposal env suffix start o ∧ ue' = o.or ue) ∧
    (¬ unknownOpen env.mode ue start → ue' = ue) := by
  unfold newEdges at h
  rw [bind_eq_ok] at h
  obtain ⟨us, hus, h⟩ := h
  rw [bind_eq_ok] at h
  obtain ⟨ss, hss, h⟩ := h
  have hd := @mem_userSysEdges env start suffix us ss hus hss
  split at h
  · rename_i hopen
    rw [unknownAllowed_iff] at hopen
    rw [bind_eq_ok] at h
    obtain ⟨⟨un, ue1⟩, hun, h⟩ := h
    simp at h
    obtain ⟨rfl, rfl⟩ := h
    obtain ⟨hm, ho⟩ := allUnkEdges_spec (found_iff hus hss) hun
    refine ⟨?_, fun _ => ho, fun hc => absurd hopen hc⟩
    intro e
    rw [← List.append_assoc, List.mem_append, hd, hm]
    constructor
    · rintro (⟨w, hw, rfl⟩ | ⟨w, hw, rfl⟩)
      · exact ⟨_, w, .inl ⟨rfl, hw⟩, rfl⟩
      · exact ⟨_, w, .inr ⟨rfl, hopen, hw⟩, rfl⟩
    · rintro ⟨t, w, ⟨rfl, hw⟩ | ⟨rfl, _, hw⟩, rfl⟩
      · exact .inl ⟨w, hw, rfl⟩
      · exact .inr ⟨w, hw, rfl⟩
  · rename_i hopen
    rw [unknownAllowed_iff] at hopen
    simp at h
    obtain ⟨rfl, rfl⟩ := h
    refine ⟨?_, fun hc => absurd hc hopen, fun _ => rfl⟩
    intro e
    rw [hd]
    constructor
    · rintro ⟨w, hw, rfl⟩; exact ⟨_, w, .inl ⟨rfl, hw⟩, rfl⟩
    · rintro ⟨t, w, ⟨rfl, hw⟩ | ⟨rfl, hc, _⟩, rfl⟩
      · exact ⟨w, hw, rfl⟩
      · exact absurd hc hopen

theorem TypedWordAt.wordAt {env : LatticeEnv} {rest : Str} {k : Nat} {latest : Option Nat} {t : EdgeType} {w : Word}
    (h : TypedWordAt env rest k latest t w) : WordAt env rest k latest w := by
  rcases h with ⟨_, h⟩ | ⟨_, h⟩
  · exact .inl h
  · exact .inr h

theorem wordAt_iff {env : LatticeEnv} {rest : Str} {k : Nat} {latest : Option Nat} {w : Word} :
    WordAt env rest k latest w ↔ ∃ t, TypedWordAt env rest k latest t w := by
  constructor
  · rintro (h | h)
    · exact ⟨_, .inl ⟨rfl, h⟩⟩
    · exact ⟨_, .inr ⟨rfl, h⟩⟩
  · rintro ⟨t, h⟩; exact h.wordAt

theorem reached_append {a b : List Edge} {p : Nat} :
    reached (a ++ b) p = true ↔ reached a p = true ∨ ∃ e ∈ b, e.stopIndex = p := by
  simp only [reached, List.any_append, Bool.or_eq_true, beq_iff_eq, List.any_eq_true]
  constructor
  · rintro (h | h | h)
    · exact .inl (.inl h)
    · exact .inl (.inr h)
    · exact .inr h
  · rintro ((h | h) | h)
    · exact .inl h
    · exact .inr (.inl h)
    · exact .inr (.inr h)

/-- Where an edge comes from. -/
def Origin (env : LatticeEnv) (text : Str) (es : List Edge) (e : Edge) (pre rest : Str) (t : EdgeType) (w : Word) : Prop :=
  text = pre ++ rest ∧ reached es (blen pre) = true ∧ e = wordEdge t w.entry (blen pre) w.surface ∧
  ∃ reach latest, Scan env text (blen pre) reach latest ∧ TypedWordAt env rest (blen pre) latest t w

/-- State of the scan once all positions below `k` are done. -/
structure ScanInv (env : LatticeEnv) (text : Str) (k : Nat) (es : List Edge) (ue : Option Nat) : Prop where
  scan : ∃ reach, Scan env text k reach ue ∧ ∀ p, reach p ↔ reached es p = true
  sound : ∀ e ∈ es, e.startIndex < k ∧ ∃ pre rest t w, Origin env text es e pre rest t w
  complete : ∀ e pre rest t w, blen pre < k → Origin env text es e pre rest t w → e ∈ es
  sorted : es.Pairwise (fun a b => a.startIndex ≤ b.startIndex)

theorem Origin.bounds {env : LatticeEnv} {text : Str} {es : List Edge} {e : Edge} {pre rest : Str}
    {t : EdgeType} {w : Word} (h : Origin env text es e pre rest t w) :
    e.startIndex = blen pre ∧ e.startIndex < e.stopIndex ∧ e.stopIndex ≤ blen text ∧ e.leftEdge = none := by
  obtain ⟨ht, _, rfl, _, _, _, hw⟩ := h
  obtain ⟨hne, hpre⟩ := hw.wordAt.ne
  obtain ⟨post, hpost⟩ := hpre
  have := blen_pos hne
  refine ⟨rfl, by simp [wordEdge]; omega, ?_, rfl⟩
  rw [ht, ← hpost]
  simp [wordEdge]

theorem genStep_inv {env : LatticeEnv} {text : Str} {k : Nat} {es es' : List Edge} {ue ue' : Option Nat}
    (hI : ScanInv env text k es ue) (h : genStep env text (es, ue) k = .ok (es', ue')) :
    ScanInv env text (k + 1) es' ue' := by
  obtain ⟨reach, hscan, hreach⟩ := hI.scan
  unfold genStep at h
  simp only at h
  split at h
  · rename_i hk
    rw [bind_eq_ok] at h
    obtain ⟨suffix, hs, h⟩ := h
    rw [orPanic_eq_ok] at hs
    obtain ⟨pre, ht, hb⟩ := dropBytes_eq_some.mp hs
    rw [bind_eq_ok] at h
    obtain ⟨⟨new, ue1⟩, hnew, h⟩ := h
    simp at h
    obtain ⟨rfl, rfl⟩ := h
    obtain ⟨hmem, hop, hcl⟩ := newEdges_spec hnew
    have hstop : ∀ e ∈ new, e.startIndex = k ∧ k < e.stopIndex := by
      intro e he
      obtain ⟨t, w, hw, rfl⟩ := (hmem e).mp he
      have := blen_pos hw.wordAt.ne.1
      exact ⟨rfl, by simp [wordEdge]; omega⟩
    have hreach' : ∀ p, reached (es ++ new) p = true ↔
        (reach p ∨ ∃ w, WordAt env suffix k ue w ∧ p = k + blen w.surface) := by
      intro p
      rw [reached_append, hreach]
      refine or_congr Iff.rfl ?_
      constructor
      · rintro ⟨e, he, rfl⟩
        obtain ⟨t, w, hw, rfl⟩ := (hmem e).mp he
        exact ⟨w, hw.wordAt, rfl⟩
      · rintro ⟨w, hw, rfl⟩
        obtain ⟨t, hw⟩ := wordAt_iff.mp hw
        exact ⟨_, (hmem _).mpr ⟨t, w, hw, rfl⟩, rfl⟩
    have hold : ∀ p, p ≤ k → (reached (es ++ new) p = true ↔ reached es p = true) := by
      intro p hp
      rw [reached_append]
      constructor
      · rintro (h | ⟨e, he, h⟩)
        · exact h
        · have := (hstop e he).2; omega
      · exact .inl
    have hscan' : ∃ reach', Scan env text (k + 1) reach' ue1 ∧ ∀ p, reach' p ↔ reached (es ++ new) p = true := by
      by_cases hopen : unknownOpen env.mode ue k
      · obtain ⟨o, ho, rfl⟩ := hop hopen
        exact ⟨_, .opened hscan ((hreach k).mpr hk) ht hb hopen ho, fun p => (hreach' p).symm⟩
      · rw [hcl hopen]
        exact ⟨_, .closed hscan ((hreach k).mpr hk) ht hb hopen, fun p => (hreach' p).symm⟩
    refine ⟨hscan', ?_, ?_, ?_⟩
    · intro e he
      rcases List.mem_append.mp he with he | he
      · obtain ⟨hlt, pre', rest', t, w, hto, hr, hw⟩ := hI.sound e he
        refine ⟨by omega, pre', rest', t, w, hto, ?_, hw⟩
        rw [reached_append]; exact .inl hr
      · obtain ⟨t, w, hw, rfl⟩ := (hmem e).mp he
        refine ⟨by simp [wordEdge], pre, suffix, t, w, ht, ?_, by rw [hb], reach, ue, by rw [hb]; exact hscan, by rw [hb]; exact hw⟩
        rw [hb, reached_append]; exact .inl hk
    · intro e pre' rest' t w hlt hor
      obtain ⟨hto, hr, heq, reach', latest', hscan'', hw⟩ := hor
      by_cases hlt' : blen pre' < k
      · refine List.mem_append_left _ (hI.complete e pre' rest' t w hlt' ⟨hto, ?_, heq, reach', latest', hscan'', hw⟩)
        exact (hold _ (by omega)).mp hr
      · have hbk : blen pre' = k := by omega
        obtain ⟨rfl, rfl⟩ := prefix_unique (ht.symm.trans hto) (hb.trans hbk.symm)
        rw [hbk] at hscan'' hw heq
        obtain ⟨rfl, _⟩ := hscan.unique hscan''
        exact List.mem_append_right _ ((hmem e).mpr ⟨t, w, hw, heq⟩)
    · rw [List.pairwise_append]
      refine ⟨hI.sorted, ?_, ?_⟩
      · rw [List.pairwise_iff_forall_sublist]
        intro a b hab
        have ha := hab.subset (show a ∈ [a, b] by simp)
        have hb' := hab.subset (show b ∈ [a, b] by simp)
        rw [(hstop a ha).1, (hstop b hb').1]; exact Nat.le_refl _
      · intro a ha b hb'
        rw [(hstop b hb').1]
        exact Nat.le_of_lt (hI.sound a ha).1
  · rename_i hk
    simp at h
    obtain ⟨rfl, rfl⟩ := h
    refine ⟨⟨reach, .skip hscan (fun hc => hk ((hreach k).mp hc)), hreach⟩, ?_, ?_, hI.sorted⟩
    · intro e he
      obtain ⟨hlt, h⟩ := hI.sound e he
      exact ⟨by omega, h⟩
    · intro e pre rest t w hlt hor
      refine hI.complete e pre rest t w ?_ hor
      by_contra hge
      have : blen pre = k := by omega
      rw [← this] at hk
      exact hk hor.2.1

/-- `gen` computes exactly the edges of usable words at reachable positions. -/
theorem gen_inv {env : LatticeEnv} {text : Str} {es : List Edge} (h : gen env text = .ok es) :
    ∃ ue, ScanInv env text (blen text) es ue := by
  unfold gen at h
  rw [bind_eq_ok] at h
  obtain ⟨⟨es', ue⟩, hf, h⟩ := h
  simp at h
  subst h
  refine ⟨ue, ?_⟩
  exact foldlM_range_inv (blen text) (fun k st => ScanInv env text k st.1 st.2)
    (by
      rintro i ⟨a, b⟩ ⟨a', b'⟩ _ hP hf
      exact genStep_inv hP hf)
    ([], none) (es', ue)
    ⟨⟨_, .start, by simp [reached]⟩, by simp, by simp, by simp⟩ hf

end Verif.Model
