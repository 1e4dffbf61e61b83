import Verif.Spec.Apart
import Verif.Proofs.InOrder
import Verif.Props.Exact
/-! Token filters on two lists of tokens. -/
namespace Verif.Model
open Verif.Spec Verif.Props

/-- The token at another place. -/
def relocate (r : Nat → Nat) (n : Nat) (t : FToken) : FToken := { t with byteStart := r t.byteStart, byteEnd := r t.byteEnd, position := n + t.position }

theorem retain_append (p : FToken → R Bool) (xs ys : List FToken) : retain p (xs ++ ys) = (do
    let a ← retain p xs
    let b ← retain p ys
    return a ++ b) := by
  induction xs with
  | nil =>
    rw [List.nil_append]
    cases h : retain p ys with
    | error e => simp [retain]
    | ok b => simp [retain]
  | cons t ts ih =>
    rw [List.cons_append, retain, retain, ih]
    cases h : p t with
    | error e => simp
    | ok k =>
      simp only [bind_ok]
      cases h1 : retain p ts with
      | error e => simp
      | ok a =>
        simp only [bind_ok]
        cases h2 : retain p ys with
        | error e => simp
        | ok b => cases k <;> simp

theorem retain_moved {p : FToken → R Bool} {r : Nat → Nat} {n : Nat} (hp : ∀ t, p (relocate r n t) = p t) (ys : List FToken) : retain p (ys.map (relocate r n)) = (do
    let out ← retain p ys
    return out.map (relocate r n)) := by
  induction ys with
  | nil => rfl
  | cons t ts ih =>
    rw [List.map_cons, retain, retain, ih, hp]
    cases h : p t with
    | error e => simp
    | ok k =>
      simp only [bind_ok]
      cases h1 : retain p ts with
      | error e => simp
      | ok a => cases k <;> simp

theorem mapM_append_R {α β : Type} (f : α → R β) (xs ys : List α) : (xs ++ ys).mapM f = (do
    let a ← xs.mapM f
    let b ← ys.mapM f
    return a ++ b) := by
  rw [List.mapM_append]

theorem mapM_commutes {α β α' β' : Type} {f : α → R β} {f' : α' → R β'} {g : α → α'} {h : β → β'} (hf : ∀ x, f' (g x) = (do
    let y ← f x
    return h y)) (xs : List α) : (xs.map g).mapM f' = (do
    let out ← xs.mapM f
    return out.map h) := by
  induction xs with
  | nil => rfl
  | cons x xs ih =>
    rw [List.map_cons, List.mapM_cons, List.mapM_cons, ih, hf]
    cases h1 : f x with
    | error e => simp
    | ok y =>
      simp only [bind_ok, pure_eq_ok]
      cases h2 : xs.mapM f with
      | error e => simp
      | ok ys => simp

/-- A filter that treats two lists of tokens separately. -/
def SplitsAt (f : TokenFilter) (left right : List FToken) : Prop :=
  ∀ r n, f (left ++ right.map (relocate r n)) = (do
    let x ← f left
    let y ← f right
    return x ++ y.map (relocate r n))

theorem retain_splits {p : FToken → R Bool} (hp : ∀ r n t, p (relocate r n t) = p t) (left right : List FToken) : SplitsAt (retain p) left right := by
  intro r n
  rw [retain_append, retain_moved (hp r n)]
  cases retain p left with
  | error e => simp
  | ok x =>
    cases retain p right with
    | error e => simp
    | ok y => simp

theorem rewriteText_splits {g : FToken → R Str} (hg : ∀ r n t, g (relocate r n t) = g t) (left right : List FToken) : SplitsAt (rewriteText g) left right := by
  intro r n
  unfold rewriteText
  rw [mapM_append_R, mapM_commutes (h := relocate r n) (f := fun t => do
    let text ← g t
    return { t with text := text })]
  · cases List.mapM (fun t => do
      let text ← g t
      return { t with text := text }) left with
    | error e => simp
    | ok x =>
      simp only [bind_ok, pure_eq_ok]
      cases List.mapM (fun t => do
        let text ← g t
        return { t with text := text }) right with
      | error e => simp
      | ok y => simp
  · intro t
    rw [hg]
    cases g t with
    | error e => simp
    | ok s => simp [relocate]

/-! ### Compound words -/

/-- The state of the loop with tokens put before it. -/
def before (pre : List FToken) (st : List FToken × Option FToken) : List FToken × Option FToken := (pre ++ st.1, st.2)

theorem CompoundWord.step_before (f : CompoundWord) (pre : List FToken) (st : List FToken × Option FToken) (t : FToken) : f.step (before pre st) t = (do
    let st' ← f.step st t
    return before pre st') := by
  obtain ⟨done, c⟩ := st
  unfold CompoundWord.step
  cases t.tag with
  | error e => simp
  | ok pos =>
    simp only [bind_ok]
    unfold CompoundWord.place before
    cases f.tags.contains pos <;> cases c with
    | none => simp
    | some c => simp

theorem CompoundWord.fold_before (f : CompoundWord) (pre : List FToken) : ∀ (ts : List FToken) (st : List FToken × Option FToken), ts.foldlM f.step (before pre st) = (do
    let st' ← ts.foldlM f.step st
    return before pre st') := by
  intro ts
  induction ts with
  | nil => intro st; rfl
  | cons t ts ih =>
    intro st
    rw [List.foldlM_cons, List.foldlM_cons, CompoundWord.step_before]
    cases f.step st t with
    | error e => simp
    | ok st' => simp only [bind_ok, pure_eq_ok]; rw [ih]; rfl

def movedState (r : Nat → Nat) (n : Nat) (st : List FToken × Option FToken) : List FToken × Option FToken := (st.1.map (relocate r n), st.2.map (relocate r n))

theorem CompoundWord.step_moved (f : CompoundWord) (r : Nat → Nat) (n : Nat) (st : List FToken × Option FToken) (t : FToken) : f.step (movedState r n st) (relocate r n t) = (do
    let st' ← f.step st t
    return movedState r n st') := by
  obtain ⟨done, c⟩ := st
  unfold CompoundWord.step
  rw [show (relocate r n t).tag = t.tag from rfl]
  cases t.tag with
  | error e => simp
  | ok pos =>
    simp only [bind_ok]
    unfold CompoundWord.place movedState
    cases f.tags.contains pos <;> cases c with
    | none => simp
    | some c =>
      first
      | simp; done
      | (simp only [if_true, Option.map_some]
         unfold CompoundWord.concat
         cases f.details with
         | error e => simp
         | ok m => simp [relocate])

theorem CompoundWord.fold_moved (f : CompoundWord) (r : Nat → Nat) (n : Nat) : ∀ (ts : List FToken) (st : List FToken × Option FToken), (ts.map (relocate r n)).foldlM f.step (movedState r n st) = (do
    let st' ← ts.foldlM f.step st
    return movedState r n st') := by
  intro ts
  induction ts with
  | nil => intro st; rfl
  | cons t ts ih =>
    intro st
    rw [List.map_cons, List.foldlM_cons, List.foldlM_cons, CompoundWord.step_moved]
    cases f.step st t with
    | error e => simp
    | ok st' => simp only [bind_ok, pure_eq_ok]; rw [ih]; rfl

/-- The tokens of the state at the end of the loop. -/
def closed (st : List FToken × Option FToken) : List FToken := st.1 ++ st.2.toList

theorem CompoundWord.apply_closed (f : CompoundWord) (ts : List FToken) : f.apply ts = (do
    let st ← ts.foldlM f.step ([], none)
    return closed st) := by
  unfold CompoundWord.apply
  cases ts.foldlM f.step ([], none) with
  | error e => simp
  | ok st =>
    obtain ⟨done, c⟩ := st
    cases c <;> simp [closed]

/-- After an untagged token the loop holds nothing back. -/
theorem CompoundWord.fold_last (f : CompoundWord) {ts : List FToken} {st : List FToken × Option FToken} (h : ts.foldlM f.step ([], none) = .ok st)
    (hlast : ∀ a pos, ts.getLast? = some a → a.tag = .ok pos → f.tags.contains pos = false) : st.2 = none := by
  rcases List.eq_nil_or_concat ts with rfl | ⟨init, a, rfl⟩
  · cases h; rfl
  · rw [List.concat_eq_append, foldlM_append_R, bind_eq_ok] at h
    obtain ⟨mid, -, h⟩ := h
    rw [List.foldlM_cons, bind_eq_ok] at h
    obtain ⟨st', h1, h2⟩ := h
    cases h2
    unfold CompoundWord.step at h1
    rw [bind_eq_ok] at h1
    obtain ⟨pos, hp, h1⟩ := h1
    rw [hlast a pos (by simp) hp] at h1
    unfold CompoundWord.place at h1
    obtain ⟨done, c⟩ := mid
    cases c <;> · cases h1; rfl

theorem CompoundWord.splits (f : CompoundWord) {left right : List FToken}
    (h : (∀ a pos, left.getLast? = some a → a.tag = .ok pos → f.tags.contains pos = false) ∨ ∀ a pos, right.head? = some a → a.tag = .ok pos → f.tags.contains pos = false) :
    SplitsAt f.apply left right := by
  intro r n
  simp only [CompoundWord.apply_closed]
  rw [foldlM_append_R]
  cases hl : left.foldlM f.step ([], none) with
  | error e => simp
  | ok st =>
    simp only [bind_ok, pure_eq_ok]
    have hm : (right.map (relocate r n)).foldlM f.step ([], none) = (do
        let st' ← right.foldlM f.step ([], none)
        return movedState r n st') := f.fold_moved r n right ([], none)
    -- nothing held back
    have key : ∀ (ts : List FToken) (done : List FToken), ts.foldlM f.step (done, none) = (do
        let st' ← ts.foldlM f.step ([], none)
        return before done st') := by
      intro ts done
      have := f.fold_before done ts ([], none)
      rwa [show before done ([], none) = (done, none) by simp [before]] at this
    have fin : ∀ done : List FToken, (right.map (relocate r n)).foldlM f.step (done, none) >>= (fun st => .ok (closed st)) =
        (right.foldlM f.step ([], none) >>= fun st' => (.ok (done ++ (closed st').map (relocate r n)) : R (List FToken))) := by
      intro done
      rw [key, hm]
      cases List.foldlM f.step ([], none) right with
      | error e => simp
      | ok st' =>
        obtain ⟨d', c'⟩ := st'
        cases c' <;> simp [before, movedState, closed]
    obtain ⟨done, c⟩ := st
    cases c with
    | none =>
      rw [fin]
      cases List.foldlM f.step ([], none) right with
      | error e => simp
      | ok st' => simp [closed]
    | some c =>
      have hr : ∀ a pos, right.head? = some a → a.tag = .ok pos → f.tags.contains pos = false := by
        rcases h with h | h
        · have := f.fold_last hl h
          cases this
        · exact h
      cases right with
      | nil => simp [closed]
      | cons t ts =>
        have hstep : ∀ t', t' = relocate r n t → f.step (done, some c) t' = f.step (done ++ [c], none) t' := by
          rintro t' rfl
          unfold CompoundWord.step
          rw [show (relocate r n t).tag = t.tag from rfl]
          cases htag : t.tag with
          | error e => simp
          | ok pos =>
            simp only [bind_ok]
            rw [hr t pos rfl htag]
            simp [CompoundWord.place]
        have := fin (done ++ [c])
        rw [List.map_cons, List.foldlM_cons] at this ⊢
        rw [hstep _ rfl, this]
        cases List.foldlM f.step ([], none) (t :: ts) with
        | error e => simp
        | ok st' => simp [closed]

/-! ### Settings -/

theorem setting_splits {env : FilterEnv} {s : TokenFilterSetting} {f : TokenFilter} (hf : s.new env = .ok f) {left right : List FToken}
    (h : ∀ kind tags newTag, s = .japaneseCompoundWord kind tags newTag → ∀ a b, left.getLast? = some a → right.head? = some b → ¬ (HasTag tags a ∧ HasTag tags b)) :
    SplitsAt f left right := by
  cases s with
  | japaneseCompoundWord kind tags newTag =>
    unfold TokenFilterSetting.new at hf
    rw [bind_eq_ok] at hf
    obtain ⟨g, hg, hf⟩ := hf
    cases hf
    have htags : ∀ tag ∈ tags, tag.count ',' ≤ 3 := by
      rcases c42_new_exact env.features kind tags newTag with h | ⟨-, h⟩
      · exact h.1.1
      · rw [hg] at h; cases h
    obtain ⟨ft, h1, h2⟩ := formatTags_ok htags
    have hgt : g.tags = ft := by
      unfold CompoundWord.new at hg
      rw [h1, bind_ok, bind_eq_ok] at hg
      obtain ⟨nt, -, hg⟩ := hg
      cases hg
      rfl
    have tagged : ∀ (t : FToken) pos, t.tag = .ok pos → (g.tags.contains pos = true ↔ HasTag tags t) := by
      intro t pos ht
      have hd : t.details ≠ [] := by
        intro hd
        unfold FToken.tag at ht
        rw [hd] at ht
        cases ht
      rw [tag_ok hd] at ht
      cases ht
      rw [hgt]
      exact h2 t hd
    refine g.splits ?_
    by_contra hcon
    rw [not_or] at hcon
    simp only [not_forall] at hcon
    obtain ⟨⟨a, p, ha, hp, hx⟩, b, q, hb, hq, hy⟩ := hcon
    exact h kind tags newTag rfl a b ha hb ⟨(tagged a p hp).mp (by simpa using hx), (tagged b q hq).mp (by simpa using hy)⟩
  | japaneseKeepTags tags =>
    unfold TokenFilterSetting.new at hf
    rw [bind_eq_ok] at hf
    obtain ⟨g, -, hf⟩ := hf
    cases hf
    exact retain_splits (fun _ _ _ => rfl) _ _
  | japaneseStopTags tags =>
    unfold TokenFilterSetting.new at hf
    rw [bind_eq_ok] at hf
    obtain ⟨g, -, hf⟩ := hf
    cases hf
    exact retain_splits (fun _ _ _ => rfl) _ _
  | japaneseNumber tags =>
    unfold TokenFilterSetting.new at hf
    rw [bind_eq_ok] at hf
    obtain ⟨g, -, hf⟩ := hf
    cases hf
    exact rewriteText_splits (fun _ _ _ => rfl) _ _
  | mapping m =>
    unfold TokenFilterSetting.new at hf
    rw [bind_eq_ok] at hf
    obtain ⟨g, -, hf⟩ := hf
    cases hf
    exact rewriteText_splits (fun _ _ _ => rfl) _ _
  | keepWords _ => cases hf; exact retain_splits (fun _ _ _ => rfl) _ _
  | stopWords _ => cases hf; exact retain_splits (fun _ _ _ => rfl) _ _
  | koreanKeepTags _ => cases hf; exact retain_splits (fun _ _ _ => rfl) _ _
  | koreanStopTags _ => cases hf; exact retain_splits (fun _ _ _ => rfl) _ _
  | length _ _ => cases hf; exact retain_splits (fun _ _ _ => rfl) _ _
  | japaneseBaseForm _ => cases hf; exact rewriteText_splits (fun _ _ _ => rfl) _ _
  | japaneseReadingForm _ => cases hf; exact rewriteText_splits (fun _ _ _ => rfl) _ _
  | koreanReadingForm => cases hf; exact rewriteText_splits (fun _ _ _ => rfl) _ _
  | japaneseKana _ => cases hf; exact rewriteText_splits (fun _ _ _ => rfl) _ _
  | japaneseKatakanaStem _ => cases hf; exact rewriteText_splits (fun _ _ _ => rfl) _ _
  | lowercase => cases hf; exact rewriteText_splits (fun _ _ _ => rfl) _ _
  | uppercase => cases hf; exact rewriteText_splits (fun _ _ _ => rfl) _ _

theorem filters_split {env : FilterEnv} {settings : List TokenFilterSetting} {fs : List TokenFilter} (hf : List.Forall₂ (fun s f => s.new env = .ok f) settings fs) :
    ∀ {left right : List FToken}, Apart env settings left right → ∀ (r : Nat → Nat) (n : Nat) (out : List FToken),
      fs.foldlM (fun ts f => f ts) (left ++ right.map (relocate r n)) = .ok out ↔
        ∃ x y, fs.foldlM (fun ts f => f ts) left = .ok x ∧ fs.foldlM (fun ts f => f ts) right = .ok y ∧ out = x ++ y.map (relocate r n) := by
  induction hf with
  | nil =>
    intro left right _ r n out
    constructor
    · intro h; cases h; exact ⟨left, right, rfl, rfl, rfl⟩
    · rintro ⟨x, y, hx, hy, rfl⟩; cases hx; cases hy; rfl
  | @cons s f settings fs h1 _ ih =>
    intro left right ha r n out
    obtain ⟨ha1, ha2⟩ := ha
    have hsp := setting_splits h1 ha1 r n
    simp only [List.foldlM_cons, bind_eq_ok]
    rw [hsp]
    constructor
    · rintro ⟨mid, hm, ho⟩
      simp only [bind_eq_ok] at hm
      obtain ⟨x, hx, y, hy, hm⟩ := hm
      cases hm
      obtain ⟨x', y', h2, h3, rfl⟩ := (ih (ha2 f x y h1 hx hy) r n out).mp ho
      exact ⟨x', y', ⟨x, hx, h2⟩, ⟨y, hy, h3⟩, rfl⟩
    · rintro ⟨x', y', ⟨x, hx, h2⟩, ⟨y, hy, h3⟩, rfl⟩
      exact ⟨x ++ y.map (relocate r n), by rw [hx, hy]; rfl, (ih (ha2 f x y h1 hx hy) r n _).mpr ⟨x', y', h2, h3, rfl⟩⟩

theorem setting_empty {env : FilterEnv} {s : TokenFilterSetting} {f : TokenFilter} (hf : s.new env = .ok f) : f [] = .ok [] := by
  cases s <;> unfold TokenFilterSetting.new at hf <;> first
    | (cases hf; rfl)
    | (rw [bind_eq_ok] at hf
       obtain ⟨g, -, hf⟩ := hf
       cases hf
       rfl)

theorem setting_relocate {env : FilterEnv} {s : TokenFilterSetting} {f : TokenFilter} (hf : s.new env = .ok f) (ts : List FToken) (r : Nat → Nat) (n : Nat) :
    f (ts.map (relocate r n)) = (do
      let out ← f ts
      return out.map (relocate r n)) := by
  have := setting_splits hf (left := []) (right := ts) (by simp) r n
  rw [setting_empty hf, List.nil_append] at this
  simpa using this

theorem filters_relocate {env : FilterEnv} {settings : List TokenFilterSetting} {fs : List TokenFilter} (hf : List.Forall₂ (fun s f => s.new env = .ok f) settings fs)
    (r : Nat → Nat) (n : Nat) : ∀ ts : List FToken, fs.foldlM (fun ts f => f ts) (ts.map (relocate r n)) = (do
      let out ← fs.foldlM (fun ts f => f ts) ts
      return out.map (relocate r n)) := by
  induction hf with
  | nil => intro ts; rfl
  | @cons s f settings fs h1 _ ih =>
    intro ts
    rw [List.foldlM_cons, List.foldlM_cons, setting_relocate h1]
    cases f ts with
    | error e => simp
    | ok mid => simp only [bind_ok, pure_eq_ok]; rw [ih]; rfl

theorem apart_relocate {env : FilterEnv} : ∀ {settings : List TokenFilterSetting} {left right : List FToken} (r r' : Nat → Nat),
    Apart env settings (left.map (relocate r 0)) (right.map (relocate r' 0)) → Apart env settings left right := by
  intro settings
  induction settings with
  | nil => intro _ _ _ _ _; trivial
  | cons s settings ih =>
    intro left right r r' h
    refine ⟨fun kind tags newTag hs a b ha hb hab => ?_, fun f left' right' hf hl hr => ?_⟩
    · exact h.1 kind tags newTag hs (relocate r 0 a) (relocate r' 0 b) (by rw [List.getLast?_map, ha]; rfl) (by rw [List.head?_map, hb]; rfl) hab
    · refine ih r r' (h.2 f _ _ hf ?_ ?_)
      · rw [setting_relocate hf, hl]; rfl
      · rw [setting_relocate hf, hr]; rfl

end Verif.Model
