import Verif.Proofs.Text
import Verif.Spec.Cli
import Verif.Proofs.Config
/-! The command line tool. -/
namespace Verif.Model
open Verif.Spec

theorem joinWith_eq (sep : Str) (xs : List Str) : joinWith sep xs = sep.intercalate xs := by
  induction xs with
  | nil => simp [joinWith]
  | cons x xs ih =>
    cases xs with
    | nil => simp [joinWith]
    | cons y ys =>
      rw [joinWith, ih]
      · simp [List.intercalate]
      · simp

theorem tokenText_info (t : FToken) : tokenText t.info = .ok t.text := rfl

theorem tokenDetails_info (t : FToken) : tokenDetails t.info = .ok ([','].intercalate t.details) := by
  have h : ((t.info.index "details".toList).asArray) = some (t.details.map .str) := rfl
  unfold tokenDetails
  rw [h]
  dsimp only
  have : (t.details.map Json.str).mapM (fun v => orPanic v.asStr) = .ok t.details := by
    generalize t.details = ds
    induction ds with
    | nil => rfl
    | cons d ds ih => rw [List.map_cons, List.mapM_cons, ih]; rfl
  rw [this, bind_ok, joinWith_eq]
  rfl

theorem then_ok (a : Str) (b : Run) : Run.then (a, .ok ()) b = (a ++ b.1, b.2) := rfl

theorem mecabLines_info (tokens : List FToken) : mecabLines (tokens.map FToken.info) = (tokens.flatMap mecabLine, .ok ()) := by
  induction tokens with
  | nil => rfl
  | cons t ts ih =>
    rw [List.map_cons, mecabLines, tokenText_info, tokenDetails_info]
    simp only [bind_ok, pure_eq_ok]
    rw [ih, println, then_ok]
    simp [mecabLine]

theorem mecabOutput_info (tokens : List FToken) : mecabOutput (tokens.map FToken.info) = (mecabText tokens, .ok ()) := by
  unfold mecabOutput
  rw [mecabLines_info, then_ok]
  rfl

theorem wakatiOutput_info {tokens : List FToken} (h : tokens ≠ []) : wakatiOutput (tokens.map FToken.info) = (wakatiText tokens, .ok ()) := by
  induction tokens with
  | nil => exact absurd rfl h
  | cons t ts ih =>
    rw [List.map_cons, wakatiOutput, tokenText_info]
    dsimp only
    cases ts with
    | nil => simp [println, wakatiOutput, then_ok, wakatiText]
    | cons u us =>
      rw [ih (by simp)]
      simp [print, then_ok, wakatiText, List.intercalate]

theorem readLines_nl {l rest : List UInt8} (h : 0x0A ∉ l) : readLines (l ++ 0x0A :: rest) = (l ++ [0x0A]) :: readLines rest := by
  induction l with
  | nil => simp [readLines]
  | cons b l ih =>
    simp only [List.mem_cons, not_or] at h
    rw [List.cons_append, readLines, if_neg (fun e => h.1 e.symm), ih h.2]
    rfl

theorem readLines_last {l : List UInt8} (hne : l ≠ []) (h : 0x0A ∉ l) : readLines l = [l] := by
  induction l with
  | nil => exact absurd rfl hne
  | cons b l ih =>
    simp only [List.mem_cons, not_or] at h
    rw [readLines, if_neg (fun e => h.1 e.symm)]
    cases l with
    | nil => rfl
    | cons c l => rw [ih (by simp) h.2]

theorem readLines_lines {input : List UInt8} {ls : List (List UInt8)} (h : Lines 0x0A input ls) : readLines input = ls := by
  induction h with
  | nil => rfl
  | last h1 h2 => exact readLines_last h1 h2
  | cons h1 _ ih => rw [readLines_nl h1, ih]

theorem lines_exists (input : List UInt8) : ∃ ls, Lines 0x0A input ls := by
  induction h : input.length using Nat.strongRecOn generalizing input with
  | _ n ih =>
    by_cases hm : (0x0A : UInt8) ∈ input
    · obtain ⟨a, b, rfl, ha⟩ := List.append_of_mem hm |>.elim fun a ⟨b, e⟩ => by
        exact (List.eq_append_cons_of_mem hm).elim fun a ⟨b, e, h⟩ => (⟨a, b, e, h⟩ : ∃ a b, input = a ++ 0x0A :: b ∧ 0x0A ∉ a)
      obtain ⟨ls, hls⟩ := ih b.length (by simp at h; omega) b rfl
      exact ⟨_, .cons ha hls⟩
    · cases input with
      | nil => exact ⟨[], .nil⟩
      | cons x xs => exact ⟨_, .last (by simp) hm⟩

/-- The loop over a split of the lines. -/
theorem cliLoop_append {analyze : Str → R (List FToken)} {format : Format} {pretty : Json → Str} {pre rest : List (List UInt8)} {outs : List Str}
    (h : List.Forall₂ (fun l o => ∃ text tokens, l = utf8 text ∧ analyze (trim text) = .ok tokens ∧ format.output pretty tokens = (o, .ok ())) pre outs) :
    cliLoop analyze format pretty (pre ++ rest) = (outs.flatten ++ (cliLoop analyze format pretty rest).1, (cliLoop analyze format pretty rest).2) := by
  induction h with
  | nil => rfl
  | cons h _ ih =>
    obtain ⟨text, tokens, rfl, h1, h2⟩ := h
    rw [List.cons_append, cliLoop, decodeUtf8_utf8]
    dsimp only
    rw [h1]
    dsimp only
    rw [h2, ih, then_ok]
    simp

/-- The text of the line `EOS` has no tab. -/
theorem mecab_injective {ts us : List FToken}
    (ht : ∀ t ∈ ts, '\t' ∉ t.text ∧ ∀ d ∈ t.details, '\n' ∉ d) (hu : ∀ t ∈ us, '\t' ∉ t.text ∧ ∀ d ∈ t.details, '\n' ∉ d)
    (h : mecabText ts = mecabText us) : ts.map (fun t => (t.text, [','].intercalate t.details)) = us.map (fun t => (t.text, [','].intercalate t.details)) := by
  have hsplit : ∀ {c : Char} {a a' b b' : Str}, c ∉ a → c ∉ a' → a ++ c :: b = a' ++ c :: b' → a = a' ∧ b = b' := by
    intro c a a' b b' h1 h2 h
    have e1 := takeWhile_ne (ys := b) h1
    have e2 := takeWhile_ne (ys := b') h2
    rw [h, e2] at e1
    subst e1
    simpa using h
  have hjoin : ∀ {ds : List Str}, (∀ d ∈ ds, '\n' ∉ d) → '\n' ∉ [','].intercalate ds := by
    intro ds h
    rw [← joinWith_eq]
    induction ds with
    | nil => simp [joinWith]
    | cons d ds ih =>
      cases ds with
      | nil => simpa [joinWith] using h
      | cons e es =>
        show '\n' ∉ d ++ [','] ++ joinWith [','] (e :: es)
        simp only [List.mem_append, not_or]
        exact ⟨⟨h d (by simp), by decide⟩, ih fun x hx => h x (by simp [hx])⟩
  have hline : ∀ (t : FToken) (ts : List FToken), mecabText (t :: ts) = t.text ++ '\t' :: ([','].intercalate t.details ++ '\n' :: mecabText ts) := by
    intro t ts; simp [mecabText, mecabLine]
  have htab : ∀ (t : FToken) (ts : List FToken), mecabText [] ≠ mecabText (t :: ts) := by
    intro t ts h
    have : '\t' ∈ mecabText [] := by rw [h, hline]; simp
    exact absurd this (by decide)
  induction ts generalizing us with
  | nil =>
    cases us with
    | nil => rfl
    | cons u us => exact absurd h (htab u us)
  | cons t ts ih =>
    cases us with
    | nil => exact absurd h.symm (htab t ts)
    | cons u us =>
      rw [hline, hline] at h
      obtain ⟨h1, h⟩ := hsplit (ht t (by simp)).1 (hu u (by simp)).1 h
      obtain ⟨h2, h⟩ := hsplit (hjoin (ht t (by simp)).2) (hjoin (hu u (by simp)).2) h
      rw [List.map_cons, List.map_cons, ih (fun x hx => ht x (by simp [hx])) (fun x hx => hu x (by simp [hx])) h, h1, h2]

/-! ### The output file of `build` -/

theorem fileName_no_slash {p f : Path} (h : p.fileName = some f) : slash ∉ f ∧ f ≠ [] ∧ f ≠ [dot] ∧ f ≠ [dot, dot] := by
  obtain ⟨_, _, _, _, h3, h4, h5, h6, _⟩ := fileName_eq_some h
  exact ⟨h3, h4, h5, h6⟩

theorem join_split (dest f : Path) : ∃ dir, dest.join f = dir ++ f ∧ (dir = [] ∨ ∃ d, dir = d ++ [slash]) := by
  unfold Path.join
  split
  · exact ⟨[], rfl, .inl rfl⟩
  · rename_i c hc
    split
    · rename_i hs
      subst hs
      refine ⟨dest, rfl, .inr ?_⟩
      obtain ⟨d, hd⟩ := List.getLast?_eq_some_iff.mp hc
      exact ⟨d, hd⟩
    · exact ⟨dest ++ [slash], by simp, .inr ⟨_, rfl⟩⟩

theorem rsplit_parts (f : Path) : (rsplitAtDot f = (f, none)) ∨ ∃ stem ext, f = stem ++ dot :: ext ∧ dot ∉ ext ∧ stem ≠ [] ∧ rsplitAtDot f = (stem, some ext) := by
  by_cases h1 : f = [dot, dot]
  · left; unfold rsplitAtDot; rw [if_pos h1]
  · by_cases h2 : dot ∈ f
    · obtain ⟨stem, ext, rfl, he⟩ := mem_split_last h2
      by_cases h3 : stem = []
      · left
        subst h3
        unfold rsplitAtDot
        have hrev : ([] ++ dot :: ext).reverse = ext.reverse ++ dot :: [] := by simp
        rw [if_neg h1, if_neg (by simp), hrev, dropWhile_ne (by simpa using he)]
        simp
      · right
        exact ⟨stem, ext, rfl, he, h3, rsplit_stem h3 he h1⟩
    · left; unfold rsplitAtDot; rw [if_neg h1, if_pos h2]

end Verif.Model
