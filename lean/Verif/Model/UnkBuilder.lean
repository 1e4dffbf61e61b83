import Verif.Model.Text
import Verif.Model.Unknown
/-! Model of the compiler of the unknown-word dictionary, `lindera-core/src/unknown_dictionary.rs` lines 34-133, from the decoded text of `unk.def`. -/
namespace Verif.Model

/-- `UnknownDictionaryEntry`, `unknown_dictionary.rs` lines 34-40. -/
structure UnkEntry where
  surface : Str
  leftId : UInt32
  rightId : UInt32
  wordCost : Int32
  deriving DecidableEq, Repr

/-- `u32::from_str(fields[i])` with its error, `unknown_dictionary.rs` lines 54-57; the index panics if there is no such field. -/
def unkU32 (fields : List Str) (i : Nat) : R UInt32 :=
  match fields[i]? with
  | none => .error .panic
  | some s => match parseU32 s with
    | some n => .ok n
    | none => .error (.err .parse)

/-- `i32::from_str(fields[i])` with its error, `unknown_dictionary.rs` lines 58-59. -/
def unkI32 (fields : List Str) (i : Nat) : R Int32 :=
  match fields[i]? with
  | none => .error .panic
  | some s => match parseI32 s with
    | some n => .ok n
    | none => .error (.err .parse)

/-- `parse_dictionary_entry`, `unknown_dictionary.rs` lines 42-67. -/
def parseUnkEntry (expected : Nat) (fields : List Str) : R UnkEntry :=
  if fields.length ≠ expected then .error (.err .content)
  else do
    let surface ← orPanic fields[0]?
    let leftId ← unkU32 fields 1
    let rightId ← unkU32 fields 2
    let wordCost ← unkI32 fields 3
    return ⟨surface, leftId, rightId, wordCost⟩

/-- `get_entry_id_matching_surface`, `unknown_dictionary.rs` lines 69-84 (`entry_id as u32` truncates). -/
def entryIdsMatching (entries : List UnkEntry) (target : Str) : List UInt32 :=
  entries.zipIdx.filterMap fun (e, i) => if e.surface = target then some (UInt32.ofNat i) else none

/-- `make_category_references`, `unknown_dictionary.rs` lines 86-94. -/
def makeCategoryReferences (categories : List Str) (entries : List UnkEntry) : List (List UInt32) :=
  categories.map (entryIdsMatching entries)

/-- `make_costs_array`, `unknown_dictionary.rs` lines 96-113 (without the log message); the `as` casts keep the low 16 bits. -/
def makeCostsArray (entries : List UnkEntry) : List WordEntry :=
  entries.map fun e => ⟨⟨4294967295, true⟩, e.wordCost.toInt16, e.leftId.toUInt16, e.rightId.toUInt16⟩

/-- `parse_unk`, `unknown_dictionary.rs` lines 115-133. -/
def parseUnk (categories : List Str) (text : Str) (expected : Nat) : R UnkDict := do
  let entries ← (lines text).mapM fun line => parseUnkEntry expected (splitAll (· = ',') line)
  return ⟨makeCategoryReferences categories entries, makeCostsArray entries⟩

end Verif.Model
