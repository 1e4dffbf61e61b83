import Verif.Spec.Reported
import Verif.Props.AnalyzerConfig
/-! Proofs about `Reported`. -/
namespace Verif.Model
open Verif.Spec

theorem reported_ok {α : Type} (a : α) : Reported (.ok a : R α) := .inl ⟨a, rfl⟩

theorem reported_err {α : Type} (k : ErrKind) : Reported (.error (.err k) : R α) := .inr ⟨k, rfl⟩

theorem reported_bind {α β : Type} {m : R α} {k : α → R β} (h : Reported m) (hk : ∀ a, m = .ok a → Reported (k a)) : Reported (m >>= k) := by
  rcases h with ⟨a, h⟩ | ⟨e, h⟩
  · rw [h, bind_ok]; exact hk a h
  · rw [h, bind_error]; exact .inr ⟨e, rfl⟩

theorem reported_mapErr {α : Type} {k : ErrKind} {r : R α} (h : Reported r) : Reported (mapErr k r) := by
  rcases h with ⟨a, rfl⟩ | ⟨e, rfl⟩
  · exact .inl ⟨a, rfl⟩
  · exact .inr ⟨k, rfl⟩

theorem reported_foldlM {α σ : Type} {f : σ → α → R σ} (xs : List α) : ∀ (s : σ), (∀ x ∈ xs, ∀ s, Reported (f s x)) → Reported (xs.foldlM f s) := by
  induction xs with
  | nil => intro s _; exact reported_ok _
  | cons x xs ih =>
    intro s h
    rw [List.foldlM_cons]
    exact reported_bind (h x (by simp) s) fun s' _ => ih s' fun y hy => h y (by simp [hy])

theorem reported_mapM {α β : Type} {f : α → R β} (xs : List α) (h : ∀ x ∈ xs, Reported (f x)) : Reported (xs.mapM f) := by
  induction xs with
  | nil => exact reported_ok _
  | cons x xs ih =>
    rw [List.mapM_cons]
    refine reported_bind (h x (by simp)) fun b _ => reported_bind (ih fun y hy => h y (by simp [hy])) fun bs _ => reported_ok _

theorem reported_readFile (env : LoadEnv) (p : Path) : Reported (env.readFile p) := by
  unfold LoadEnv.readFile
  split
  · exact reported_ok _
  · exact reported_err _

theorem reported_codec {α : Type} (c : Codec α) (bs : List UInt8) : Reported (c.load bs) := by
  unfold Codec.load
  split
  · exact reported_ok _
  · exact reported_err _

theorem readFile_ok {env : LoadEnv} {p : Path} {data : List UInt8} : env.readFile p = .ok data ↔ env.files p = some data := by
  unfold LoadEnv.readFile
  cases env.files p <;> simp

/-- Four bytes are enough for a matrix, and necessary. -/
theorem connMatrix_load (data : List UInt8) : (4 ≤ data.length → ∃ m, ConnMatrix.load data = .ok m) ∧ (data.length < 4 → ConnMatrix.load data = .error .panic) := by
  match data with
  | [] => exact ⟨fun h => by simp at h, fun _ => rfl⟩
  | [a] => exact ⟨fun h => by simp at h, fun _ => rfl⟩
  | [a, b] => exact ⟨fun h => by simp at h, fun _ => rfl⟩
  | [a, b, c] => exact ⟨fun h => by simp at h, fun _ => rfl⟩
  | a :: b :: c :: d :: rest =>
    refine ⟨fun _ => ⟨_, rfl⟩, fun h => by simp at h; omega⟩

theorem reported_dictionary {env : LoadEnv} {dir : Path} (h : ∀ data, env.files (dir.join (utf8 "matrix.mtx".toList)) = some data → 4 ≤ data.length) : Reported (env.loadDictionary dir) := by
  unfold LoadEnv.loadDictionary
  refine reported_bind ?_ fun _ _ => reported_bind ?_ fun _ _ => reported_bind ?_ fun _ _ => reported_bind ?_ fun _ _ => reported_bind (reported_readFile _ _) fun _ _ =>
    reported_bind (reported_readFile _ _) fun _ _ => reported_ok _
  · exact reported_bind (reported_readFile _ _) fun _ _ => reported_bind (reported_readFile _ _) fun _ _ => reported_ok _
  · exact reported_bind (reported_readFile _ _) fun data hd => .inl ((connMatrix_load data).1 (h data (readFile_ok.mp hd)))
  · exact reported_bind (reported_readFile _ _) fun _ _ => reported_codec _ _
  · exact reported_bind (reported_readFile _ _) fun _ _ => reported_codec _ _

theorem reported_orParse {α : Type} (o : Option α) : Reported (orParse o) := by
  cases o
  · exact reported_err _
  · exact reported_ok _

theorem reported_field {row : Row} {i : Nat} (h : i < row.fields.length) : Reported (orPanic row.fields[i]?) := by
  rw [List.getElem?_eq_getElem h]; exact reported_ok _

theorem reported_numbers {kind : DictionaryKind} {row : Row} (h : 3 ≤ row.fields.length) : Reported ((UserCfg.ofKind kind).numbers row) := by
  unfold UserCfg.numbers
  split
  · exact reported_ok _
  · rename_i hne
    have hne : row.fields.length ≠ 3 := hne
    refine reported_bind (reported_field (by omega)) fun _ _ => reported_bind (reported_orParse _) fun _ _ => reported_bind (reported_field (by omega)) fun _ _ =>
      reported_bind (reported_orParse _) fun _ _ => reported_bind (reported_field (by omega)) fun _ _ => reported_bind (reported_orParse _) fun _ _ => reported_ok _

theorem reported_rowDetails {kind : DictionaryKind} {row : Row} (h : 3 ≤ row.fields.length) : Reported ((UserCfg.ofKind kind).rowDetails row) := by
  unfold UserCfg.rowDetails
  split
  · show Reported (kind.handler row)
    unfold DictionaryKind.handler simpleColumns
    refine reported_bind (reported_bind (reported_field (by omega)) fun _ _ => reported_bind (reported_field (by omega)) fun _ _ => reported_ok _) fun x _ => ?_
    obtain ⟨_, _, _⟩ := x
    exact reported_ok _
  · split
    · exact reported_ok _
    · exact reported_err _

theorem reported_buildUserDict (yada : DaBuilder) (kind : DictionaryKind) (rows : List Row) (h : ∀ row ∈ rows, 3 ≤ row.fields.length) :
    Reported (buildUserDict yada (UserCfg.ofKind kind) rows) := by
  unfold buildUserDict
  have hr : Reported ((UserCfg.ofKind kind).readRows rows) := by
    unfold UserCfg.readRows
    split
    · exact reported_ok _
    · split
      · exact reported_ok _
      · exact reported_err _
  refine reported_bind hr fun rows' hrows => ?_
  have h' : ∀ row ∈ sortByKey Row.first rows', 3 ≤ row.fields.length := by
    intro row hrow
    refine h row ?_
    have hm : row ∈ rows' := (sortByKey_perm (key := Row.first) _).mem_iff.mp hrow
    unfold UserCfg.readRows at hrows
    split at hrows
    · cases hrows; cases hm
    · split at hrows
      · cases hrows; exact hm
      · cases hrows
  refine reported_bind ?_ fun m _ => reported_bind ?_ fun x _ => ?_
  · unfold UserCfg.entryMap
    refine reported_foldlM _ _ fun x hx s => ?_
    refine reported_bind (reported_numbers (h' x.1 (List.fst_mem_of_mem_zipIdx hx))) fun n _ => reported_ok _
  · refine reported_foldlM _ _ fun row hrow s => ?_
    exact reported_bind (reported_rowDetails (h' row hrow)) fun _ _ => reported_ok _
  · obtain ⟨words, idx⟩ := x
    dsimp only
    split
    · exact reported_err _
    · exact reported_ok _

theorem reported_loadUser {env : LoadEnv} (hp : Presentable env) (c : UserDictionaryConfig) : Reported (env.loadUserFromConfig c) := by
  unfold LoadEnv.loadUserFromConfig
  split
  · rename_i ext hext
    split
    · rename_i hc
      split
      · rename_i kind _
        refine reported_mapErr (reported_bind (reported_readFile _ _) fun data hd => ?_)
        split
        · rename_i rows hrows
          refine reported_buildUserDict _ _ _ (hp.rows c.path data rows ?_ (readFile_ok.mp hd) hrows)
          rw [hext, decodeUtf8_eq_some.mp hc]
        · exact reported_err _
      · exact reported_err _
    · split
      · exact reported_bind (reported_readFile _ _) fun _ _ => reported_bind (reported_codec _ _) fun _ _ => reported_ok _
      · exact reported_err _
  · exact reported_err _

theorem reported_fromConfig {env : LoadEnv} (hp : Presentable env) (c : DictionaryConfig) : Reported (env.loadFromConfig c) := by
  unfold LoadEnv.loadFromConfig LoadEnv.loadFromKind
  split
  · split
    · exact reported_mapErr (hp.builtin _)
    · exact reported_err _
  · split
    · exact reported_dictionary (hp.matrix _)
    · exact reported_err _

theorem reported_users {env : LoadEnv} (hp : Presentable env) (c : Option UserDictionaryConfig) : Reported (env.loadUser c) := by
  unfold LoadEnv.loadUser
  split
  · exact reported_bind (reported_loadUser hp _) fun _ _ => reported_ok _
  · exact reported_ok _

theorem reported_tokenizer {env : LoadEnv} (hp : Presentable env) (c : TokenizerConfig) : Reported (env.tokenizer c) :=
  reported_bind (reported_fromConfig hp _) fun _ _ => reported_bind (reported_users hp _) fun _ _ => reported_ok _

theorem reported_mapping (yada : DaBuilder) (m : StrMap) : Reported (Mapping.new yada m) := by
  unfold Mapping.new
  split
  · exact reported_ok _
  · exact reported_err _

theorem reported_charFilter (env : FilterEnv) (kind : Str) (args : Json) : Reported (env.charFilter kind args) := by
  unfold FilterEnv.charFilter
  split
  · rename_i s _
    cases s with
    | iterationMark => exact reported_ok _
    | mapping m => exact reported_bind (reported_mapping _ _) fun _ _ => reported_ok _
    | regex p r =>
      simp only [CharFilterSetting.new]
      cases env.regex p with
      | none => exact reported_err _
      | some f => exact reported_ok _
    | unicodeNormalize => exact reported_ok _
  · exact reported_err _

theorem reported_tokenFilter (env : FilterEnv) (kind : Str) (args : Json) (h : ∀ s, TokenSetting kind args s → ShortTags s) : Reported (env.tokenFilter kind args) := by
  cases hr : env.tokenFilter kind args with
  | ok f => exact reported_ok f
  | error e =>
    rcases (Props.c66_token_partial env kind args).2.2 h e hr with rfl | ⟨rfl, -⟩
    · exact reported_err _
    · exact reported_err _

end Verif.Model
