import Verif.Spec.Filtering
import Verif.Proofs.Words
import Verif.Proofs.Apart
namespace Verif.Model
open Verif.Spec

/-- A configured filter gives no tokens if there are none. -/
theorem setting_none {env : FilterEnv} {s : TokenFilterSetting} {f : TokenFilter} (hf : s.new env = .ok f) : f [] = .ok [] := by
  cases s with
  | japaneseCompoundWord kind tags newTag =>
    unfold TokenFilterSetting.new at hf
    rw [bind_eq_ok] at hf
    obtain ⟨g, -, hf⟩ := hf
    cases hf
    rfl
  | japaneseKeepTags tags =>
    unfold TokenFilterSetting.new at hf
    rw [bind_eq_ok] at hf
    obtain ⟨g, -, hf⟩ := hf
    cases hf
    rfl
  | japaneseStopTags tags =>
    unfold TokenFilterSetting.new at hf
    rw [bind_eq_ok] at hf
    obtain ⟨g, -, hf⟩ := hf
    cases hf
    rfl
  | japaneseNumber tags =>
    unfold TokenFilterSetting.new at hf
    rw [bind_eq_ok] at hf
    obtain ⟨g, -, hf⟩ := hf
    cases hf
    rfl
  | mapping m =>
    unfold TokenFilterSetting.new at hf
    rw [bind_eq_ok] at hf
    obtain ⟨g, -, hf⟩ := hf
    cases hf
    rfl
  | _ => cases hf; rfl

/-- Moving by no positions changes byte offsets only. -/
theorem relocate_zero (back : Nat → Nat) : relocate back 0 = relocated back := by
  funext t
  unfold relocate relocated
  rw [Nat.zero_add]

/-- A configured filter does not depend on byte offsets. -/
theorem setting_relocated {env : FilterEnv} {s : TokenFilterSetting} {f : TokenFilter} (hf : s.new env = .ok f) (back : Nat → Nat) (ts : List FToken) :
    f (ts.map (relocated back)) = (do
      let out ← f ts
      return out.map (relocated back)) := by
  have h := setting_splits hf (left := []) (right := ts) (by intro _ _ _ _ a b h; cases h) back 0
  rw [relocate_zero, List.nil_append, setting_none hf, bind_ok] at h
  rw [h]
  rfl

/-- A list of configured filters does not depend on byte offsets. -/
theorem filters_relocated {env : FilterEnv} {ss : List TokenFilterSetting} {fs : List TokenFilter} (hs : List.Forall₂ (fun s f => s.new env = .ok f) ss fs) (back : Nat → Nat) :
    ∀ ts : List FToken, fs.foldlM (fun ts f => f ts) (ts.map (relocated back)) = (do
      let out ← fs.foldlM (fun ts f => f ts) ts
      return out.map (relocated back)) := by
  induction hs with
  | nil => intro ts; rfl
  | @cons s f ss fs h1 _ ih =>
    intro ts
    rw [List.foldlM_cons, List.foldlM_cons, setting_relocated h1]
    cases hf : f ts with
    | error e => rfl
    | ok out =>
      simp only [bind_ok, pure_eq_ok]
      exact ih out

/-- How a list of tables leads an offset back (lindera-analyzer/src/analyzer.rs: the last loop of `Analyzer::analyze`). -/
def backBy (tables : List (OffsetTable × Nat)) (o : Nat) : R Nat := tables.foldlM (fun o tb => tb.1.correct o tb.2) o

/-- A token is corrected exactly if both its offsets are. -/
theorem correctBy_iff (tables : List (OffsetTable × Nat)) : ∀ t t' : FToken, tables.foldlM FToken.correctBy t = .ok t' ↔ Corrected (backBy tables) t t' := by
  induction tables with
  | nil =>
    intro t t'
    constructor
    · intro h; cases h; exact ⟨rfl, rfl, rfl⟩
    · rintro ⟨h1, h2, h3⟩
      rw [h3, ← Except.ok.inj h1, ← Except.ok.inj h2]
      rfl
  | cons tb tables ih =>
    intro t t'
    rw [List.foldlM_cons, bind_eq_ok]
    unfold Corrected backBy
    rw [List.foldlM_cons, List.foldlM_cons, bind_eq_ok, bind_eq_ok]
    constructor
    · rintro ⟨mid, h1, h2⟩
      unfold FToken.correctBy at h1
      simp only [bind_eq_ok] at h1
      obtain ⟨s, hs, e, he, h1⟩ := h1
      cases h1
      obtain ⟨k1, k2, k3⟩ := (ih _ _).mp h2
      exact ⟨⟨s, hs, k1⟩, ⟨e, he, k2⟩, k3⟩
    · rintro ⟨⟨s, hs, k1⟩, ⟨e, he, k2⟩, k3⟩
      refine ⟨{ t with byteStart := s, byteEnd := e }, ?_, (ih _ _).mpr ⟨k1, k2, k3⟩⟩
      unfold FToken.correctBy
      rw [hs, bind_ok, he]
      rfl

end Verif.Model
