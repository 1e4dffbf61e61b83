import Verif.Proofs.NoPanic
/-! A small concrete tokenizer used by the non-vacuity examples. -/
deriving instance DecidableEq for Except
namespace Verif.Sample
open Verif.Model Verif.Spec

/-- Five system words: `a`, `ab`, `b` and `猫` with two homographs. -/
def entries : List WordEntry :=
  [⟨⟨0, true⟩, 3, 0, 0⟩, ⟨⟨1, true⟩, 10, 0, 0⟩, ⟨⟨2, true⟩, 8, 0, 0⟩, ⟨⟨3, true⟩, 5, 0, 0⟩, ⟨⟨4, true⟩, 6, 0, 0⟩]

def sysDict : PrefixDict :=
  ⟨⟨[([97], 1), ([97, 98], 33), ([98], 65), ([0xE7, 0x8C, 0xAB], 98)]⟩, entries.flatMap WordEntry.serialize, true⟩

/-- One user word: `bc`. -/
def userDict : UserDictionary :=
  ⟨⟨⟨[([98, 99], 1)]⟩, WordEntry.serialize ⟨⟨0, false⟩, 1, 0, 0⟩, false⟩, [], []⟩

/-- One category for all characters, grouping, not invoked. -/
def charDefs : CharDefs := ⟨[⟨false, true, 0⟩], [['D']], ⟨[0], [[0]]⟩⟩

def unk : UnkDict := ⟨[[0]], [⟨WordId.default, 100, 0, 0⟩]⟩

def dictionary : Dictionary := ⟨sysDict, ⟨[0, 0], 1⟩, charDefs, unk, [], []⟩

def tok : Tokenizer := ⟨dictionary, some userDict, .normal⟩

/-- The same in decompose mode. -/
def tokD : Tokenizer := ⟨dictionary, some userDict, .decompose Penalty.default⟩

theorem lookup (c : Char) : charDefs.lookupCategories c = .ok [0] := by
  unfold CharDefs.lookupCategories LookupTable.eval binarySearch
  by_cases h : c.toNat = 0
  · simp [charDefs, h, orPanic]
  · have : 0 < c.toNat := by omega
    simp [charDefs, this, orPanic]

theorem complete (mode : Mode) : Complete ⟨dictionary, some userDict, mode⟩ := by
  intro c
  refine ⟨[0], lookup c, by simp, ?_⟩
  simp only [List.mem_singleton, forall_eq]
  exact ⟨⟨_, rfl⟩, [0], rfl, 0, by simp, _, rfl⟩

theorem sysDictOk : DictOk 1 1 sysDict := by
  intro k v h
  replace h := exactMatch_mem h
  simp only [sysDict, List.mem_cons, Prod.mk.injEq, List.not_mem_nil, or_false] at h
  rcases h with ⟨rfl, rfl⟩ | ⟨rfl, rfl⟩ | ⟨rfl, rfl⟩ | ⟨rfl, rfl⟩
  · exact ⟨⟨['a'], by decide⟩, [⟨⟨0, true⟩, 3, 0, 0⟩], by decide +kernel, by simp [InMatrix]⟩
  · exact ⟨⟨['a', 'b'], by decide⟩, [⟨⟨1, true⟩, 10, 0, 0⟩], by decide +kernel, by simp [InMatrix]⟩
  · exact ⟨⟨['b'], by decide⟩, [⟨⟨2, true⟩, 8, 0, 0⟩], by decide +kernel, by simp [InMatrix]⟩
  · exact ⟨⟨['猫'], by decide⟩, [⟨⟨3, true⟩, 5, 0, 0⟩, ⟨⟨4, true⟩, 6, 0, 0⟩], by decide +kernel, by simp [InMatrix]⟩

theorem userDictOk : DictOk 1 1 userDict.dict := by
  intro k v h
  replace h := exactMatch_mem h
  simp only [userDict, List.mem_singleton, Prod.mk.injEq] at h
  obtain ⟨rfl, rfl⟩ := h
  exact ⟨⟨['b', 'c'], by decide⟩, [⟨⟨0, false⟩, 1, 0, 0⟩], by decide +kernel, by simp [InMatrix]⟩

theorem consistent (mode : Mode) : Consistent ⟨dictionary, some userDict, mode⟩ := by
  refine ⟨1, 1, by omega, by omega, by omega, rfl, Nat.le_refl _, sysDictOk, ?_, ?_⟩
  · intro u hu; cases hu; exact userDictOk
  · intro c
    refine ⟨[0], lookup c, ?_⟩
    simp only [List.mem_singleton, forall_eq]
    refine ⟨⟨_, rfl⟩, [0], rfl, ?_⟩
    simp only [List.mem_singleton, forall_eq]
    exact ⟨_, rfl, by simp [InMatrix]⟩

/-- A text with two sentences: `ab。abc猫`. -/
def text : Str := ['a', 'b', '。', 'a', 'b', 'c', '猫']

def toks : List Token :=
  [⟨['a', 'b'], 0, 2, 0, 1, ⟨1, true⟩, none⟩, ⟨['。'], 2, 5, 1, 1, ⟨0xffffffff, true⟩, none⟩,
   ⟨['a'], 5, 6, 2, 1, ⟨0, true⟩, none⟩, ⟨['b', 'c'], 6, 8, 3, 1, ⟨0, false⟩, none⟩,
   ⟨['猫'], 8, 11, 4, 1, ⟨3, true⟩, none⟩]

theorem tokenized : tok.tokenize text = .ok toks := by decide +kernel

end Verif.Sample
