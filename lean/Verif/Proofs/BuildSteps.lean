import Verif.Proofs.BuildDir
import Verif.Proofs.Text
/-! The four steps of a dictionary build, file by file. -/
namespace Verif.Model
open Verif.Spec

theorem join_inj {dir a b : Path} (h : dir.join a = dir.join b) : a = b := by
  unfold Path.join at h
  cases hl : dir.getLast? with
  | none => rw [hl] at h; exact h
  | some c =>
    rw [hl] at h
    dsimp only at h
    split at h
    · exact List.append_cancel_left h
    · simpa using h

theorem inDir_inj {dir : Path} {a b : String} (h : inDir dir a = inDir dir b) : a = b := by
  have h1 := join_inj h
  have h2 := congrArg decodeUtf8 h1
  rw [decodeUtf8_utf8, decodeUtf8_utf8] at h2
  exact String.toList_inj.mp (Option.some.inj h2)

section
variable {fl : Faults} {env : BuildEnv} {cfg : BuildCfg} {src : SourceDir} {out : Path}

theorem keeps_chardef {q : Path} (h : inDir out "char_def.bin" ≠ q) : Keeps q (env.buildChardef cfg src out) :=
  (Keeps.liftR _).bind fun _ => (Keeps.withWriter h ((Keeps.writeData h _ _).bind fun _ => Keeps.flushBuf h)).bind fun _ => Keeps.pure _

theorem keeps_unk {q : Path} {d : CharDefs} (h : inDir out "unk.bin" ≠ q) : Keeps q (env.buildUnk cfg src d out) :=
  (Keeps.liftR _).bind fun _ => Keeps.withWriter h ((Keeps.writeData h _ _).bind fun _ => Keeps.flushBuf h)

theorem keeps_matrix {q : Path} (h : inDir out "matrix.mtx" ≠ q) : Keeps q (env.buildCostMatrix cfg src out) :=
  (Keeps.liftR _).bind fun _ => Keeps.withWriter h ((Keeps.writeData h _ _).bind fun _ => Keeps.flushBuf h)

theorem keeps_dict {q : Path} (h1 : inDir out "dict.da" ≠ q) (h2 : inDir out "dict.vals" ≠ q) (h3 : inDir out "dict.words" ≠ q)
    (h4 : inDir out "dict.wordsidx" ≠ q) : Keeps q (env.buildDict cfg src out) :=
  (Keeps.liftR _).bind fun _ => Keeps.withWriter h1 <| Keeps.withWriter h2 <| (Keeps.liftR _).bind fun _ =>
    Keeps.withWriter h3 <| Keeps.withWriter h4 <| (Keeps.liftR _).bind fun _ => (Keeps.writeData h3 _ _).bind fun _ => (Keeps.writeData h4 _ _).bind fun _ =>
      (Keeps.flushBuf h3).bind fun _ => (Keeps.flushBuf h4).bind fun _ => (Keeps.liftR _).bind fun _ => (Keeps.writeData h1 _ _).bind fun _ =>
        (Keeps.writeData h2 _ _).bind fun _ => Keeps.flushBuf h2

/-- What is stored for some data. -/
def BuildEnv.stored (env : BuildEnv) (data : List UInt8) : List UInt8 := compressWrite env.feature env.flate data .deflate

variable {old : Option (List UInt8)}

theorem chardef_file (hp : PiecesOk env) {d : CharDefs} (hd : env.compileChardef cfg src = .ok d) :
    Tri fl (inDir out "char_def.bin") (Torn old (env.stored d.bytes)) (fun c _ => c = old) (env.buildChardef cfg src out)
      fun r c _ => Final old (env.stored d.bytes) r c := by
  refine Tri.liftOk hd (fun _ _ h => .inl h) (Tri.bind (M := fun _ c _ => c = some (env.stored d.bytes)) ((writeFile hp rfl).conseq (fun _ _ h => h) ?_) fun _ => ?_)
  · rintro r c b h
    cases r with
    | ok a => rcases h with ⟨-, h⟩ | ⟨⟨e, he⟩, -⟩
              · exact h
              · simp at he
    | error e => rcases h with ⟨⟨a, ha⟩, -⟩ | ⟨-, h⟩
                 · simp at ha
                 · exact .inr ⟨⟨_, rfl⟩, h⟩
  · exact Tri.pure (fun c b h => .inr ⟨_, h, List.prefix_refl _⟩) fun c b h => .inl ⟨⟨_, rfl⟩, h⟩

theorem unk_file (hp : PiecesOk env) {d : CharDefs} {u : UnkDict} (hu : env.compileUnk cfg src d = .ok u) :
    Tri fl (inDir out "unk.bin") (Torn old (env.stored u.bytes)) (fun c _ => c = old) (env.buildUnk cfg src d out)
      fun r c _ => Final old (env.stored u.bytes) r c :=
  Tri.liftOk hu (fun _ _ h => .inl h) (writeFile hp rfl)

theorem matrix_file (hp : PiecesOk env) {m : List UInt8} (hm : env.compileMatrix cfg src = .ok m) :
    Tri fl (inDir out "matrix.mtx") (Torn old (env.stored m)) (fun c _ => c = old) (env.buildCostMatrix cfg src out)
      fun r c _ => Final old (env.stored m) r c :=
  Tri.liftOk hm (fun _ _ h => .inl h) (writeFile hp rfl)

/-- The intermediate results of compiling the word list. -/
structure DictSteps (env : BuildEnv) (cfg : BuildCfg) (src : SourceDir) (out : DictFiles) where
  rows : List Row
  map : EntryMap
  hrows : env.readRows cfg src.csvs = .ok rows
  hmap : cfg.dict.entryMap (sortByKey cfg.dict.rowKey rows) = .ok map
  hdetails : (sortByKey cfg.dict.rowKey rows).foldlM (init := ([], [])) cfg.dict.pushDetails = .ok (out.words, out.wordsIdx)
  hda : env.doubleArray map = .ok out.da
  hvals : out.vals = valsBuffer map

theorem inScope_of_open {α : Type} {full : List UInt8} {e : Fail} {c : Option (List UInt8)} {b x : List UInt8} {f : Bool} (hx : x <+: full) (h : Open x c b) :
    InScope (α := α) full f (.error e) c b := .inr ⟨⟨_, rfl⟩, h.broken hx⟩

theorem inScope_done {full : List UInt8} : ∀ (r : R Unit) c b, (Open full c b ∧ b = []) → InScope full true r c b := by
  rintro r c b ⟨h, hb⟩
  cases r with
  | ok a => exact .inl ⟨⟨_, rfl⟩, h, fun _ => hb⟩
  | error e => exact inScope_of_open (List.prefix_refl _) h

theorem inScope_loose {full : List UInt8} : ∀ (r : R Unit) c b, Open full c b → InScope full false r c b := by
  intro r c b h
  cases r with
  | ok a => exact .inl ⟨⟨_, rfl⟩, h, fun h => by simp at h⟩
  | error e => exact inScope_of_open (List.prefix_refl _) h

theorem names_ne : inDir out "dict.da" ≠ inDir out "dict.vals" ∧ inDir out "dict.da" ≠ inDir out "dict.words" ∧ inDir out "dict.da" ≠ inDir out "dict.wordsidx" ∧
    inDir out "dict.vals" ≠ inDir out "dict.words" ∧ inDir out "dict.vals" ≠ inDir out "dict.wordsidx" ∧ inDir out "dict.words" ≠ inDir out "dict.wordsidx" := by
  refine ⟨?_, ?_, ?_, ?_, ?_, ?_⟩ <;> exact fun h => absurd (inDir_inj h) (by decide)

theorem old_torn {full : List UInt8} : ∀ (c : Option (List UInt8)) (_ : List UInt8), c = old → Torn old full c := fun _ _ h => .inl h

theorem done_torn {full : List UInt8} : ∀ (c : Option (List UInt8)) (b : List UInt8), (Open full c b ∧ b = []) → Torn old full c :=
  fun _ _ h => (h.1.broken (List.prefix_refl _)).torn

theorem da_file (hp : PiecesOk env) {o : DictFiles} (h : DictSteps env cfg src o) :
    Tri fl (inDir out "dict.da") (Torn old (env.stored (env.format.store o.da))) (fun c _ => c = old) (env.buildDict cfg src out)
      fun r c _ => FinalLoose fl old (env.stored (env.format.store o.da)) r c := by
  obtain ⟨n1, n2, n3, n4, n5, n6⟩ := names_ne (out := out)
  have ht := open_torn (old := old) (List.nil_prefix (l := env.stored (env.format.store o.da)))
  have herr : ∀ e c b, Open [] c b → InScope (α := Unit) (env.stored (env.format.store o.da)) false (.error e) c b := fun e c b hb => inScope_of_open List.nil_prefix hb
  refine Tri.liftOk h.hrows old_torn (withWriter_unflushed ?_)
  refine Tri.withOther n1.symm ht (Tri.liftOk h.hmap ht ?_) fun c b hb _ => herr _ c b hb
  refine Tri.withOther n2.symm ht (Tri.withOther n3.symm ht ?_ fun c b hb _ => herr _ c b hb) fun c b hb _ => herr _ c b hb
  refine Tri.liftOk h.hdetails ht ?_
  refine Tri.bindKeep (Keeps.writeData n2.symm _ _) ht herr fun _ => ?_
  refine Tri.bindKeep (Keeps.writeData n3.symm _ _) ht herr fun _ => ?_
  refine Tri.bindKeep (Keeps.flushBuf n2.symm) ht herr fun _ => ?_
  refine Tri.bindKeep (Keeps.flushBuf n3.symm) ht herr fun _ => ?_
  refine Tri.liftOk h.hda ht ?_
  refine Tri.bindWrite hp rfl fun _ => ?_
  have ht' := open_torn (old := old) (List.prefix_refl (env.stored (env.format.store o.da)))
  refine Tri.bindKeep (Keeps.writeData n1.symm _ _) ht' (fun e => inScope_loose _) fun _ => ?_
  exact (Tri.keeps (Keeps.flushBuf n1.symm) ht').conseq (fun _ _ h => h) inScope_loose

theorem vals_file (hp : PiecesOk env) {o : DictFiles} (h : DictSteps env cfg src o) :
    Tri fl (inDir out "dict.vals") (Torn old (env.stored o.vals)) (fun c _ => c = old) (env.buildDict cfg src out)
      fun r c _ => Final old (env.stored o.vals) r c := by
  obtain ⟨n1, n2, n3, n4, n5, n6⟩ := names_ne (out := out)
  have ht := open_torn (old := old) (List.nil_prefix (l := env.stored o.vals))
  have herr : ∀ e c b, Open [] c b → InScope (α := Unit) (env.stored o.vals) true (.error e) c b := fun e c b hb => inScope_of_open List.nil_prefix hb
  refine Tri.liftOk h.hrows old_torn (Tri.withOther n1 old_torn (withWriter_flushed ?_) fun c b hb _ => .inr ⟨⟨_, rfl⟩, .inl hb⟩)
  refine Tri.liftOk h.hmap ht ?_
  refine Tri.withOther n4.symm ht (Tri.withOther n5.symm ht ?_ fun c b hb _ => herr _ c b hb) fun c b hb _ => herr _ c b hb
  refine Tri.liftOk h.hdetails ht ?_
  refine Tri.bindKeep (Keeps.writeData n4.symm _ _) ht herr fun _ => ?_
  refine Tri.bindKeep (Keeps.writeData n5.symm _ _) ht herr fun _ => ?_
  refine Tri.bindKeep (Keeps.flushBuf n4.symm) ht herr fun _ => ?_
  refine Tri.bindKeep (Keeps.flushBuf n5.symm) ht herr fun _ => ?_
  refine Tri.liftOk h.hda ht ?_
  refine Tri.bindKeep (Keeps.writeData n1 _ _) ht herr fun _ => ?_
  refine Tri.bindWrite hp (by rw [← h.hvals]; rfl) fun _ => ?_
  exact flushLast

theorem words_file (hp : PiecesOk env) {o : DictFiles} (h : DictSteps env cfg src o) :
    Tri fl (inDir out "dict.words") (Torn old (env.stored o.words)) (fun c _ => c = old) (env.buildDict cfg src out)
      fun r c _ => Final old (env.stored o.words) r c := by
  obtain ⟨n1, n2, n3, n4, n5, n6⟩ := names_ne (out := out)
  have ht := open_torn (old := old) (List.prefix_refl (env.stored o.words))
  have herr : ∀ e c b, Open (env.stored o.words) c b → InScope (α := Unit) (env.stored o.words) true (.error e) c b :=
    fun e c b hb => inScope_of_open (List.prefix_refl _) hb
  have hout : ∀ (c : Option (List UInt8)) (b : List UInt8), c = old → ¬ NoFaults fl → Final (α := Unit) old (env.stored o.words) (.error (.err .io)) c :=
    fun c b hb _ => .inr ⟨⟨_, rfl⟩, .inl hb⟩
  refine Tri.liftOk h.hrows old_torn (Tri.withOther n2 old_torn (Tri.withOther n4 old_torn (Tri.liftOk h.hmap old_torn (withWriter_flushed ?_)) hout) hout)
  have ht0 := open_torn (old := old) (List.nil_prefix (l := env.stored o.words))
  refine Tri.withOther n6.symm ht0 (Tri.liftOk h.hdetails ht0 ?_) fun c b hb _ => inScope_of_open List.nil_prefix hb
  refine Tri.bindWrite hp rfl fun _ => ?_
  refine Tri.bindKeep (Keeps.writeData n6.symm _ _) ht herr fun _ => ?_
  refine Tri.bindFlush fun _ => ?_
  refine Tri.bindKeep (Keeps.flushBuf n6.symm) done_torn (fun e => inScope_done _) fun _ => ?_
  refine Tri.bindKeep (Keeps.liftR _) done_torn (fun e => inScope_done _) fun _ => ?_
  refine Tri.bindKeep (Keeps.writeData n2 _ _) done_torn (fun e => inScope_done _) fun _ => ?_
  refine Tri.bindKeep (Keeps.writeData n4 _ _) done_torn (fun e => inScope_done _) fun _ => ?_
  exact (Tri.keeps (Keeps.flushBuf n4) done_torn).conseq (fun _ _ h => h) inScope_done

theorem idx_file (hp : PiecesOk env) {o : DictFiles} (h : DictSteps env cfg src o) :
    Tri fl (inDir out "dict.wordsidx") (Torn old (env.stored o.wordsIdx)) (fun c _ => c = old) (env.buildDict cfg src out)
      fun r c _ => Final old (env.stored o.wordsIdx) r c := by
  obtain ⟨n1, n2, n3, n4, n5, n6⟩ := names_ne (out := out)
  have ht := open_torn (old := old) (List.prefix_refl (env.stored o.wordsIdx))
  have hout : ∀ (c : Option (List UInt8)) (b : List UInt8), c = old → ¬ NoFaults fl → Final (α := Unit) old (env.stored o.wordsIdx) (.error (.err .io)) c :=
    fun c b hb _ => .inr ⟨⟨_, rfl⟩, .inl hb⟩
  refine Tri.liftOk h.hrows old_torn (Tri.withOther n3 old_torn (Tri.withOther n5 old_torn (Tri.liftOk h.hmap old_torn
    (Tri.withOther n6 old_torn (withWriter_flushed ?_) hout)) hout) hout)
  have ht0 := open_torn (old := old) (List.nil_prefix (l := env.stored o.wordsIdx))
  refine Tri.liftOk h.hdetails ht0 ?_
  refine Tri.bindKeep (Keeps.writeData n6 _ _) ht0 (fun e c b hb => inScope_of_open List.nil_prefix hb) fun _ => ?_
  refine Tri.bindWrite hp rfl fun _ => ?_
  refine Tri.bindKeep (Keeps.flushBuf n6) ht (fun e c b hb => inScope_of_open (List.prefix_refl _) hb) fun _ => ?_
  refine Tri.bindFlush fun _ => ?_
  refine Tri.bindKeep (Keeps.liftR _) done_torn (fun e => inScope_done _) fun _ => ?_
  refine Tri.bindKeep (Keeps.writeData n3 _ _) done_torn (fun e => inScope_done _) fun _ => ?_
  refine Tri.bindKeep (Keeps.writeData n5 _ _) done_torn (fun e => inScope_done _) fun _ => ?_
  exact (Tri.keeps (Keeps.flushBuf n5) done_torn).conseq (fun _ _ h => h) inScope_done

end

end Verif.Model
