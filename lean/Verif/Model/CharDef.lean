import Verif.Model.Basic
/-! Model of the compiled character definitions, `lindera-core/src/character_definition.rs`. -/
namespace Verif.Model

/-- `CategoryData`, `lindera-core/src/character_definition.rs` lines 32-37. -/
structure CategoryData where
  invoke : Bool
  group : Bool
  length : UInt32
  deriving DecidableEq, Repr

/-- `LookupTable<CategoryId>`, `character_definition.rs` lines 49-53; `CategoryId(usize)` (lines 39-40) is a `Nat`. -/
structure LookupTable where
  boundaries : List Nat
  values : List (List Nat)
  deriving DecidableEq, Repr

/-- `slice::binary_search` (Rust core) on an increasing slice: `ok i` if the element is at `i`, `error i` with the
insertion point otherwise. For an increasing slice without duplicates the result is determined by its
documentation; with duplicates Rust may return any matching index, the model returns the first. -/
def binarySearch (xs : List Nat) (t : Nat) : Except Nat Nat :=
  let i := (xs.takeWhile (· < t)).length
  if xs[i]? = some t then .ok i else .error i

/-- `LookupTable::eval`, `character_definition.rs` lines 70-76. `val - 1` underflows (panic, or an out-of-range index in release) at 0. -/
def LookupTable.eval (t : LookupTable) (target : Nat) : R (List Nat) :=
  match binarySearch t.boundaries target with
  | .ok i => orPanic t.values[i]?
  | .error 0 => .error .panic
  | .error (i + 1) => orPanic t.values[i]?

/-- `CharacterDefinitions`, `character_definition.rs` lines 42-47. -/
structure CharDefs where
  definitions : List CategoryData
  names : List Str
  mapping : LookupTable
  deriving DecidableEq, Repr

/-- `CharacterDefinitions::lookup_definition`, `character_definition.rs` lines 89-91. -/
def CharDefs.lookupDefinition (d : CharDefs) (cat : Nat) : R CategoryData := orPanic d.definitions[cat]?

/-- `CharacterDefinitions::category_name`, `character_definition.rs` lines 93-95. -/
def CharDefs.categoryName (d : CharDefs) (cat : Nat) : R Str := orPanic d.names[cat]?

/-- `CharacterDefinitions::lookup_categories`, `character_definition.rs` lines 97-99. -/
def CharDefs.lookupCategories (d : CharDefs) (c : Char) : R (List Nat) := d.mapping.eval c.toNat

end Verif.Model
