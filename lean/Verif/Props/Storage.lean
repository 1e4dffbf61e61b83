import Verif.Proofs.Compress
import Verif.Props.Sample
/-! Properties of the stored forms: C25-C27. -/
namespace Verif.Props
open Verif.Model Verif.Spec

namespace Stored

/-- A double array format for the examples: the number of keys, then each key with its value. -/
def format : DaFormat where
  store d := (Codec.vec ((Codec.vec Codec.u8).pair Codec.u32)).enc d.keys
  view bs := match (Codec.vec ((Codec.vec Codec.u8).pair Codec.u32)).dec bs with
    | some p => ⟨p.1⟩
    | none => ⟨[]⟩

def charDefs : CharDefs := ⟨[⟨false, true, 0⟩, ⟨true, false, 300⟩], [['D', 'E'], ['カ', 'ナ']], ⟨[0, 0x30A1, 0x3100], [[0], [1, 0], []]⟩⟩
def unkDict : UnkDict := ⟨[[0, 1], [], [70000]], [⟨⟨0xFFFFFFFF, true⟩, -300, 5, 6⟩]⟩
def userDict : UserDictionary := ⟨⟨⟨[([227, 130, 162], 33)]⟩, [1, 0, 0, 0, 240, 216, 0, 0, 0, 0], false⟩, [0, 0, 0, 0], [1, 0, 0, 0, 0, 0, 0, 0, 0, 0]⟩

theorem charDefsTyped : CharDefsTyped charDefs := by
  constructor <;> unfold Usize <;> decide
theorem unkDictTyped : UnkDictTyped unkDict := by
  constructor <;> unfold Usize <;> decide
theorem userDictTyped : UserDictTyped format userDict := by
  constructor <;> unfold Usize <;> decide

end Stored

/-! ### C25 Serialized dictionaries load back unchanged -/

/-- C25: character definitions. -/
theorem c25_char_defs (d : CharDefs) (h : CharDefsTyped d) : CharDefs.load d.bytes = .ok d := by
  have := Codec.good_charDefs.load ⟨h.definitions, h.names, h.boundaries, h.values⟩ []
  rwa [List.append_nil] at this

/-- C25: unknown dictionaries. -/
theorem c25_unk_dict (u : UnkDict) (h : UnkDictTyped u) : UnkDict.load u.bytes = .ok u := by
  have := Codec.good_unkDict.load ⟨h.references, h.costs⟩ []
  rwa [List.append_nil] at this

/-- C25: user dictionaries. -/
theorem c25_user_dict (f : DaFormat) (u : UserDictionary) (hf : f.view (f.store u.dict.da) = u.dict.da) (h : UserDictTyped f u) :
    UserDictionary.load f (u.bytes f) = .ok u := by
  have := Codec.good_userDict.load (a := u.toData f) ⟨h.da, h.vals, h.wordsIdx, h.words⟩ []
  rw [List.append_nil] at this
  unfold UserDictionary.load UserDictionary.bytes
  rw [this]
  obtain ⟨⟨da, vals, sys⟩, idx, words⟩ := u
  show Except.ok (UserDictionary.ofData f _) = _
  simp only [UserDictionary.ofData, UserDictionary.toData]
  exact congrArg _ (by rw [show f.view (f.store da) = da from hf])

/-- C25: different dictionaries have different files. -/
theorem c25_injective (u v : UserDictionary) (f : DaFormat) (hf : Faithful f) (hu : UserDictTyped f u) (hv : UserDictTyped f v)
    (h : u.bytes f = v.bytes f) : u = v := by
  have h1 := c25_user_dict f u (hf _) hu
  rw [h, c25_user_dict f v (hf _) hv] at h1
  exact (Except.ok.inj h1).symm

example : CharDefsTyped Stored.charDefs ∧ CharDefs.load Stored.charDefs.bytes = .ok Stored.charDefs :=
  ⟨Stored.charDefsTyped, by decide +kernel⟩
example : UnkDictTyped Stored.unkDict ∧ UnkDict.load Stored.unkDict.bytes = .ok Stored.unkDict := ⟨Stored.unkDictTyped, by decide +kernel⟩
example : UserDictTyped Stored.format Stored.userDict ∧
    UserDictionary.load Stored.format (Stored.userDict.bytes Stored.format) = .ok Stored.userDict :=
  ⟨Stored.userDictTyped, by decide +kernel⟩
/-- A sample way to write double arrays: the keys, each byte marked, and their values. -/
def Stored.write (d : DoubleArray) : List UInt8 := d.keys.flatMap fun p => (p.1.flatMap fun b => [1, b]) ++ 0 :: leU32 p.2

/-- A format that is faithful on every double array exists. -/
theorem exists_faithful : ∃ f : DaFormat, Faithful f ∧ f.store = Stored.write := by
  classical
  have hs : Function.Injective Stored.write := by
    unfold Stored.write
    have key : ∀ (k k' : List UInt8) (r r' : List UInt8), (k.flatMap fun b => [1, b]) ++ 0 :: r = (k'.flatMap fun b => [1, b]) ++ 0 :: r' →
        k = k' ∧ r = r' := by
      intro k
      induction k with
      | nil =>
        intro k' r r' h
        cases k' with
        | nil => simpa using h
        | cons b k' => simp at h
      | cons b k ih =>
        intro k' r r' h
        cases k' with
        | nil => simp at h
        | cons b' k' =>
          simp only [List.flatMap_cons, List.cons_append, List.nil_append, List.cons.injEq, true_and] at h
          obtain ⟨rfl, h⟩ := h
          obtain ⟨rfl, rfl⟩ := ih _ _ _ h
          exact ⟨rfl, rfl⟩
    rintro ⟨d⟩ ⟨d'⟩ h
    congr 1
    dsimp only at h
    induction d generalizing d' with
    | nil =>
      cases d' with
      | nil => rfl
      | cons p d' => simp at h
    | cons p d ih =>
      cases d' with
      | nil => simp at h
      | cons p' d' =>
        simp only [List.flatMap_cons, List.append_assoc, List.cons_append] at h
        obtain ⟨h1, h2⟩ := key _ _ _ _ h
        have e1 := readU32_leU32 p.2 (d.flatMap fun p => (p.1.flatMap fun b => [1, b]) ++ 0 :: leU32 p.2)
        have e2 := readU32_leU32 p'.2 (d'.flatMap fun p => (p.1.flatMap fun b => [1, b]) ++ 0 :: leU32 p.2)
        rw [h2, e2] at e1
        have e3 : p'.2 = p.2 := by simpa using e1
        rw [e3] at h2
        rw [ih d' (List.append_cancel_left h2), Prod.ext h1 e3.symm]
  exact ⟨⟨Stored.write, fun bs => if h : ∃ d, Stored.write d = bs then h.choose else ⟨[]⟩⟩, fun d => by
    have h : ∃ d', Stored.write d' = Stored.write d := ⟨d, rfl⟩
    simp only [h, dif_pos]
    exact hs h.choose_spec, rfl⟩

/-! ### C26 A truncated binary dictionary is rejected -/

/-- C26: character definitions. -/
theorem c26_char_defs (d : CharDefs) (h : CharDefsTyped d) (p : List UInt8) (hp : StrictPrefix p d.bytes) :
    CharDefs.load p = .error (.err .deserialize) := by
  obtain ⟨q, he, hq⟩ := hp
  exact Codec.good_charDefs.truncated (a := d) ⟨h.definitions, h.names, h.boundaries, h.values⟩ he hq

/-- C26: unknown dictionaries. -/
theorem c26_unk_dict (u : UnkDict) (h : UnkDictTyped u) (p : List UInt8) (hp : StrictPrefix p u.bytes) :
    UnkDict.load p = .error (.err .deserialize) := by
  obtain ⟨q, he, hq⟩ := hp
  exact Codec.good_unkDict.truncated (a := u) ⟨h.references, h.costs⟩ he hq

/-- C26: user dictionaries. -/
theorem c26_user_dict (f : DaFormat) (u : UserDictionary) (h : UserDictTyped f u) (p : List UInt8) (hp : StrictPrefix p (u.bytes f)) :
    UserDictionary.load f p = .error (.err .deserialize) := by
  obtain ⟨q, he, hq⟩ := hp
  unfold UserDictionary.load
  rw [Codec.good_userDict.truncated (a := u.toData f) ⟨h.da, h.vals, h.wordsIdx, h.words⟩ he hq]
  rfl

example : StrictPrefix (Stored.unkDict.bytes.take 60) Stored.unkDict.bytes ∧ Stored.unkDict.bytes.length = 63 ∧
    UnkDict.load (Stored.unkDict.bytes.take 60) = .error (.err .deserialize) :=
  ⟨⟨Stored.unkDict.bytes.drop 60, (List.take_append_drop _ _).symm, by decide +kernel⟩, by decide +kernel, by decide +kernel⟩
example : CharDefs.load (Stored.charDefs.bytes.take 100) = .error (.err .deserialize) := by decide +kernel

/-! ### C27 Compress/decompress round trip -/

/-- C27: decompressing compressed data gives it back, for each algorithm. -/
theorem c27_roundtrip (fl : Flate) (h : FlateContract fl) (data : List UInt8) (a : Algorithm) :
    decompress fl (compress fl data a) = some data := by
  cases a
  · exact h.deflate data
  · exact h.zlib data
  · exact h.gzip data
  · rfl

/-- C27: the compressed container survives its own serialization, whatever follows it in the file. -/
theorem c27_container (c : CompressedData) (h : Usize c.data.length) (rest : List UInt8) :
    Codec.compressedData.dec (Codec.compressedData.enc c ++ rest) = some (c, rest) :=
  Codec.good_compressedData.roundtrip c h rest

/-- C27: what the dictionary compilers write is what the dictionary crates read, with and without compression. -/
theorem c27_written_file (feature : Bool) (fl : Flate) (h : FlateContract fl) (data : List UInt8) (a : Algorithm)
    (hs : Usize (compress fl data a).data.length) :
    loadEmbedded feature fl (compressWrite feature fl data a) = .ok data := by
  cases feature with
  | false => rfl
  | true =>
    have := c27_container _ hs []
    rw [List.append_nil] at this
    simp [loadEmbedded, compressWrite, this, c27_roundtrip fl h]

/-- C27: a truncated compressed file is never taken for another file: reading it panics. -/
theorem c27_truncated (fl : Flate) (data : List UInt8) (a : Algorithm) (hs : Usize (compress fl data a).data.length) (p : List UInt8)
    (hp : StrictPrefix p (compressWrite true fl data a)) : loadEmbedded true fl p = .error .panic := by
  obtain ⟨q, he, hq⟩ := hp
  have := Codec.good_compressedData.truncated (a := compress fl data a) hs he hq
  unfold Codec.load at this
  unfold loadEmbedded
  cases hd : Codec.compressedData.dec p with
  | none => rfl
  | some x => rw [hd] at this; simp at this

namespace Stored
/-- A toy compressor for the examples: each format has its own header byte. -/
def flate : Flate where
  deflate x := 1 :: x
  inflate | 1 :: x => some x | _ => none
  zlib x := 2 :: x.reverse
  unzlib | 2 :: x => some x.reverse | _ => none
  gzip x := 3 :: x ++ [9]
  gunzip | 3 :: x => some x.dropLast | _ => none

theorem flateOk : FlateContract flate := ⟨fun _ => rfl, fun x => by simp [flate], fun x => by simp [flate]⟩
end Stored

example : FlateContract Stored.flate ∧ Usize (compress Stored.flate [7, 8] .zlib).data.length ∧
    loadEmbedded true Stored.flate (compressWrite true Stored.flate [7, 8] .zlib) = .ok [7, 8] ∧
    compressWrite true Stored.flate [7, 8] .zlib = [1, 0, 0, 0, 3, 0, 0, 0, 0, 0, 0, 0, 2, 8, 7] :=
  ⟨Stored.flateOk, by unfold Usize; decide, by decide +kernel, by decide +kernel⟩

end Verif.Props
